import Verif.Lemmas.Recur
import Verif.Lemmas.Birkhoff

/-!
# The law of large numbers for Markov chains
-/

namespace Stochopy
open Spec MeasureTheory Filter Topology
open scoped ENNReal

variable {X Ω : Type} [MeasurableSpace X] [MeasurableSpace Ω]

/-- The first input and the others. -/
theorem inputs_split (P : Measure Ω) [IsProbabilityMeasure P] {A : Set (Nat → Ω)} (hA : MeasurableSet A) :
    inputs P A = ∫⁻ r, inputs P {ω | cons (r, ω) ∈ A} ∂P := by
  have h0 : inputs P A = (P.prod (inputs P)) (cons ⁻¹' A) := by
    rw [← Measure.map_apply measurable_cons hA, inputs_cons P]
  exact h0.trans (Measure.prod_apply (measurable_cons hA))

/-- The probability of an invariant event after one step. -/
theorem invariant_step (P : Measure Ω) [IsProbabilityMeasure P] {step : X → Ω → X} {E : Set (X × (Nat → Ω))}
    (hE : MeasurableSet E) (hTE : ∀ z, advanceChain step z ∈ E ↔ z ∈ E) (x : X) :
    inputs P {ω | (x, ω) ∈ E} = ∫⁻ r, inputs P {ω | (step x r, ω) ∈ E} ∂P := by
  refine (inputs_split P (A := {ω | (x, ω) ∈ E}) (measurable_prodMk_left hE)).trans ?_
  refine lintegral_congr fun r => congrArg _ (Set.ext fun ω => ?_)
  exact (hTE (x, cons (r, ω))).symm

/-- The probability of an invariant event is almost everywhere the same. -/
theorem invariant_constant {π : Measure X} [IsProbabilityMeasure π] {P : Measure Ω} [IsProbabilityMeasure P] {step : X → Ω → X}
    (hm : Measurable fun e : X × Ω => step e.1 e.2) (hinv : (π.prod P).map (fun e => step e.1 e.2) = π)
    (hirr : ∀ B, MeasurableSet B → π B ≠ 0 → ∀ᵐ x ∂π, P {ω | step x ω ∈ B} ≠ 0)
    {E : Set (X × (Nat → Ω))} (hE : MeasurableSet E) (hTE : ∀ z, advanceChain step z ∈ E ↔ z ∈ E) :
    ∀ᵐ x ∂π, inputs P {ω | (x, ω) ∈ E} = (π.prod (inputs P)) E := by
  set h : X → ℝ≥0∞ := fun x => inputs P {ω | (x, ω) ∈ E} with hh
  have hhm : Measurable h := measurable_measure_prodMk_left hE
  have hh1 : ∀ x, h x ≤ 1 := fun x => prob_le_one
  have hstep : ∀ x, h x = ∫⁻ r, h (step x r) ∂P := invariant_step P hE hTE
  have hfin : ∀ x, h x ≠ ∞ := fun x => ((hh1 x).trans_lt ENNReal.one_lt_top).ne
  set u : X → ℝ := fun x => (h x).toReal with hu
  have hum : Measurable u := hhm.ennreal_toReal
  have hu0 : ∀ x, 0 ≤ u x := fun x => ENNReal.toReal_nonneg
  have hu1 : ∀ x, u x ≤ 1 := fun x => by
    have := ENNReal.toReal_mono ENNReal.one_ne_top (hh1 x)
    simpa using this
  have hustep : ∀ x, ∫ r, u (step x r) ∂P = u x := by
    intro x
    show ∫ r, (h (step x r)).toReal ∂P = (h x).toReal
    have hmx : Measurable fun r => h (step x r) := hhm.comp (hm.comp measurable_prodMk_left)
    rw [integral_toReal hmx.aemeasurable (ae_of_all _ fun r => (hh1 _).trans_lt ENNReal.one_lt_top), ← hstep x]
  have hconst := Measure.ae_ae_of_ae_prod (harmonic_step hm hinv hum hu0 hu1 hustep)
  have hui : Integrable u π := Integrable.of_bound hum.aestronglyMeasurable 1
    (ae_of_all _ fun x => by rw [Real.norm_eq_abs, abs_of_nonneg (hu0 x)]; exact hu1 x)
  set c := ∫ x, u x ∂π with hc
  have hB : MeasurableSet {x | u x < c} := hum measurableSet_Iio
  have hge : ∀ᵐ x ∂π, c ≤ u x := by
    by_cases h0 : π {x | u x < c} = 0
    · exact (measure_eq_zero_iff_ae_notMem.1 h0).mono fun x hx => not_lt.1 hx
    · exfalso
      have hlt : ∀ᵐ x ∂π, u x < c := by
        filter_upwards [hconst, hirr _ hB h0] with x h1 h2
        by_contra hx
        refine h2 (measure_mono_null (t := {r | ¬ u (step x r) = u x}) (fun r hr he => hx ?_) h1)
        have : u (step x r) < c := hr
        have he' : u (step x r) = u x := he
        rwa [he'] at this
      have hpos : 0 < ∫ x, (c - u x) ∂π := by
        rw [integral_pos_iff_support_of_nonneg_ae (hlt.mono fun x hx => (sub_pos.2 hx).le) ((integrable_const c).sub hui)]
        refine pos_iff_ne_zero.2 fun hz => ?_
        have h3 : ∀ᵐ x ∂π, False := by
          filter_upwards [hlt, measure_eq_zero_iff_ae_notMem.1 hz] with x h1 h2
          exact h2 (sub_pos.2 h1).ne'
        rw [eventually_false_iff_eq_bot, ae_eq_bot] at h3
        exact IsProbabilityMeasure.ne_zero π h3
      rw [integral_sub (integrable_const c) hui, integral_const, probReal_univ, one_smul, ← hc, sub_self] at hpos
      exact lt_irrefl _ hpos
  have hz : ∀ᵐ x ∂π, u x - c = 0 := by
    have h1 : ∫ x, (u x - c) ∂π = 0 := by
      rw [integral_sub hui (integrable_const c), integral_const, probReal_univ, one_smul, ← hc, sub_self]
    exact (integral_eq_zero_iff_of_nonneg_ae (hge.mono fun x hx => sub_nonneg.2 hx) (hui.sub (integrable_const c))).1 h1
  have hcE : (π.prod (inputs P)) E = ENNReal.ofReal c := by
    rw [Measure.prod_apply hE]
    have h1 : ∫⁻ x, h x ∂π = ∫⁻ x, ENNReal.ofReal (u x) ∂π :=
      lintegral_congr fun x => (ENNReal.ofReal_toReal (hfin x)).symm
    refine Eq.trans h1 ?_
    rw [← ofReal_integral_eq_lintegral_ofReal hui (ae_of_all _ hu0)]
  filter_upwards [hz] with x hx
  rw [hcE, ← sub_eq_zero.1 hx]
  exact (ENNReal.ofReal_toReal (hfin x)).symm

/-- Invariant events have probability zero or one, when the chain can go from almost everywhere to every region. -/
theorem chain_zero_one {π : Measure X} [IsProbabilityMeasure π] {P : Measure Ω} [IsProbabilityMeasure P] {step : X → Ω → X}
    (hm : Measurable fun e : X × Ω => step e.1 e.2) (hinv : (π.prod P).map (fun e => step e.1 e.2) = π)
    (hirr : ∀ B, MeasurableSet B → π B ≠ 0 → ∀ᵐ x ∂π, P {ω | step x ω ∈ B} ≠ 0)
    {E : Set (X × (Nat → Ω))} (hE : MeasurableSet E) (hTE : ∀ z, advanceChain step z ∈ E ↔ z ∈ E) :
    (π.prod (inputs P)) E = 0 ∨ (π.prod (inputs P)) E = 1 := by
  set μ := π.prod (inputs P) with hμ
  set c := μ E with hc
  -- an invariant event does not depend on the first inputs
  have hcyl : ∀ (n : Nat) (t : Nat → Set Ω), (∀ i, MeasurableSet (t i)) →
      ∀ᵐ x ∂π, inputs P {ω | (x, ω) ∈ E ∧ ∀ i < n, ω i ∈ t i} = c * ∏ i ∈ Finset.range n, P (t i) := by
    intro n
    induction n with
    | zero =>
      intro t _
      filter_upwards [invariant_constant hm hinv hirr hE hTE] with x hx
      simpa using hx
    | succ n ih =>
      intro t ht
      have h1 := ih (fun i => t (i + 1)) fun i => ht (i + 1)
      have h2 : ∀ᵐ e ∂(π.prod P), inputs P {ω | (step e.1 e.2, ω) ∈ E ∧ ∀ i < n, ω i ∈ t (i + 1)} =
          c * ∏ i ∈ Finset.range n, P (t (i + 1)) := by
        have : ∀ᵐ x ∂((π.prod P).map fun e => step e.1 e.2), inputs P {ω | (x, ω) ∈ E ∧ ∀ i < n, ω i ∈ t (i + 1)} =
          c * ∏ i ∈ Finset.range n, P (t (i + 1)) := by rw [hinv]; exact h1
        exact ae_of_ae_map hm.aemeasurable this
      filter_upwards [Measure.ae_ae_of_ae_prod h2] with x hx
      have hA : MeasurableSet {ω : Nat → Ω | (x, ω) ∈ E ∧ ∀ i < n + 1, ω i ∈ t i} := by
        refine (measurable_prodMk_left hE : MeasurableSet {ω : Nat → Ω | (x, ω) ∈ E}).inter ?_
        have : {ω : Nat → Ω | ∀ i < n + 1, ω i ∈ t i} = ⋂ i : Nat, ⋂ _ : i < n + 1, {ω | ω i ∈ t i} := by
          ext ω; simp
        show MeasurableSet {ω : Nat → Ω | ∀ i < n + 1, ω i ∈ t i}
        rw [this]
        exact MeasurableSet.iInter fun i => MeasurableSet.iInter fun _ => measurable_pi_apply i (ht i)
      rw [inputs_split P hA]
      have h3 : ∀ᵐ r ∂P, inputs P {ω | cons (r, ω) ∈ {ω : Nat → Ω | (x, ω) ∈ E ∧ ∀ i < n + 1, ω i ∈ t i}} =
          (t 0).indicator (fun _ => c * ∏ i ∈ Finset.range n, P (t (i + 1))) r := by
        filter_upwards [hx] with r hr
        by_cases hr0 : r ∈ t 0
        · rw [Set.indicator_of_mem hr0, ← hr]
          congr 1
          ext ω
          show ((x, cons (r, ω)) ∈ E ∧ ∀ i < n + 1, cons (r, ω) i ∈ t i) ↔ _
          refine and_congr (hTE (x, cons (r, ω))).symm ⟨fun h i hi => h (i + 1) (by omega), fun h i hi => ?_⟩
          cases i with
          | zero => exact hr0
          | succ i => exact h i (by omega)
        · rw [Set.indicator_of_notMem hr0]
          refine measure_mono_null (t := ∅) (fun ω hω => ?_) measure_empty
          have : ∀ i < n + 1, cons (r, ω) i ∈ t i := hω.2
          exact absurd (this 0 (by omega)) hr0
      rw [lintegral_congr_ae h3, lintegral_indicator_const (ht 0), Finset.prod_range_succ', mul_assoc]
  by_cases hc0 : c = 0
  · exact Or.inl hc0
  · right
    have hcfin : c ≠ ∞ := measure_ne_top _ _
    -- so it is independent of everything
    have hprod : π.prod (inputs P) = c⁻¹ • μ.restrict E := by
      refine Measure.prod_eq fun S A hS hA => ?_
      by_cases hS0 : π S = 0
      · rw [hS0, zero_mul, Measure.smul_apply, smul_eq_mul]
        have : μ (S ×ˢ A) = 0 := by rw [hμ, Measure.prod_prod, hS0, zero_mul]
        rw [le_antisymm ((Measure.restrict_apply_le E _).trans this.le) bot_le]
        exact mul_zero _
      · have hSfin : π S ≠ ∞ := measure_ne_top _ _
        have hν : (π S)⁻¹ • ((c⁻¹ • μ.restrict E).restrict (S ×ˢ Set.univ)).map Prod.snd = inputs P := by
          unfold inputs
          refine Measure.eq_infinitePi (fun _ : Nat => P) fun s t ht => ?_
          classical
          obtain ⟨n, hn⟩ : ∃ n, s ⊆ Finset.range n := ⟨s.sup id + 1, fun i hi => by
            rw [Finset.mem_range]
            have : i ≤ s.sup id := Finset.le_sup (f := id) hi
            omega⟩
          set t' : Nat → Set Ω := fun i => if i ∈ s then t i else Set.univ with ht'
          have ht'm : ∀ i, MeasurableSet (t' i) := fun i => by
            rw [ht']
            dsimp only
            split
            · exact ht i
            · exact MeasurableSet.univ
          have hpi : (s : Set Nat).pi t = {ω | ∀ i < n, ω i ∈ t' i} := by
            ext ω
            rw [Set.mem_pi, Set.mem_setOf_eq]
            constructor
            · intro h i hi
              rw [ht']
              dsimp only
              split
              · rename_i his
                exact h i his
              · trivial
            · intro h i hi
              have := h i (Finset.mem_range.1 (hn hi))
              rw [ht'] at this
              dsimp only at this
              rwa [if_pos (show i ∈ s from hi)] at this
          have hpr : ∏ i ∈ Finset.range n, P (t' i) = ∏ i ∈ s, P (t i) := by
            rw [← Finset.prod_subset hn (f := fun i => P (t' i))]
            · refine Finset.prod_congr rfl fun i hi => ?_
              rw [ht']
              dsimp only
              rw [if_pos hi]
            · intro i _ hi
              rw [ht']
              dsimp only
              rw [if_neg hi, measure_univ]
          have hpm : MeasurableSet ((s : Set Nat).pi t) := MeasurableSet.pi s.countable_toSet fun i _ => ht i
          have hrect : MeasurableSet (S ×ˢ ((s : Set Nat).pi t)) := hS.prod hpm
          have e1 : μ (S ×ˢ ((s : Set Nat).pi t) ∩ E) = π S * (c * ∏ i ∈ s, P (t i)) := by
            rw [hμ, Measure.prod_apply (hrect.inter hE)]
            have : ∀ᵐ x ∂π, inputs P (Prod.mk x ⁻¹' (S ×ˢ ((s : Set Nat).pi t) ∩ E)) =
                S.indicator (fun _ => c * ∏ i ∈ s, P (t i)) x := by
              filter_upwards [hcyl n t' ht'm] with x hx
              by_cases hxS : x ∈ S
              · rw [Set.indicator_of_mem hxS, ← hpr, ← hx]
                congr 1
                ext ω
                rw [hpi]
                exact ⟨fun h => ⟨h.2, h.1.2⟩, fun h => ⟨⟨hxS, h.2⟩, h.1⟩⟩
              · rw [Set.indicator_of_notMem hxS]
                refine measure_mono_null (t := ∅) (fun ω hω => ?_) measure_empty
                exact absurd hω.1.1 hxS
            rw [lintegral_congr_ae this, lintegral_indicator_const hS, mul_comm]
          rw [Measure.smul_apply, smul_eq_mul, Measure.map_apply measurable_snd hpm,
            Measure.restrict_apply (measurable_snd hpm), Measure.smul_apply, smul_eq_mul]
          have e2 : Prod.snd ⁻¹' ((s : Set Nat).pi t) ∩ S ×ˢ (Set.univ : Set (Nat → Ω)) = S ×ˢ ((s : Set Nat).pi t) := by
            ext z
            exact ⟨fun h => ⟨h.2.1, h.1⟩, fun h => ⟨h.2, h.1, trivial⟩⟩
          rw [e2, Measure.restrict_apply hrect, e1]
          calc (π S)⁻¹ * (c⁻¹ * (π S * (c * ∏ i ∈ s, P (t i))))
              = ((π S)⁻¹ * π S) * (c⁻¹ * c) * ∏ i ∈ s, P (t i) := by ring
            _ = _ := by rw [ENNReal.inv_mul_cancel hS0 hSfin, ENNReal.inv_mul_cancel hc0 hcfin, one_mul, one_mul]
        have h1 := congrArg (fun ν => ν A) hν
        rw [Measure.smul_apply, smul_eq_mul, Measure.map_apply measurable_snd hA, Measure.restrict_apply (measurable_snd hA)] at h1
        have e2 : Prod.snd ⁻¹' A ∩ S ×ˢ (Set.univ : Set (Nat → Ω)) = S ×ˢ A := by
          ext z
          exact ⟨fun h => ⟨h.2.1, h.1⟩, fun h => ⟨h.2, h.1, trivial⟩⟩
        rw [e2] at h1
        rw [← h1, ← mul_assoc, ENNReal.mul_inv_cancel hS0 hSfin, one_mul]
    have h1 : μ Eᶜ = 0 := by
      have := congrArg (fun ν => ν Eᶜ) hprod
      rw [Measure.smul_apply, Measure.restrict_apply hE.compl, Set.compl_inter_self, measure_empty, smul_zero] at this
      exact this
    exact (prob_compl_eq_zero_iff hE).1 h1

/-- The law of large numbers for functions of the whole future of a chain. -/
theorem chain_average {π : Measure X} [IsProbabilityMeasure π] {P : Measure Ω} [IsProbabilityMeasure P] {step : X → Ω → X}
    (hm : Measurable fun e : X × Ω => step e.1 e.2) (hinv : (π.prod P).map (fun e => step e.1 e.2) = π)
    (hirr : ∀ B, MeasurableSet B → π B ≠ 0 → ∀ᵐ x ∂π, P {ω | step x ω ∈ B} ≠ 0)
    {F : X × (Nat → Ω) → ℝ} (hF : Measurable F) (hFi : Integrable F (π.prod (inputs P))) :
    ∀ᵐ z ∂(π.prod (inputs P)), Tendsto (fun n : Nat => (∑ k ∈ Finset.range n, F ((advanceChain step)^[k] z)) / n) atTop
      (𝓝 (∫ z, F z ∂(π.prod (inputs P)))) :=
  ae_birkhoff (advanceChain_preserving hm hinv) (fun _ hE hTE => chain_zero_one hm hinv hirr hE hTE) hF hFi

end Stochopy
