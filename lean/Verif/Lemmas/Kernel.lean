import Verif.Spec.Kernel
import Verif.Lemmas.Sampler
import Mathlib.MeasureTheory.Constructions.Pi
import Mathlib.MeasureTheory.Group.Prod
import Mathlib.MeasureTheory.Measure.Lebesgue.Basic
import Mathlib.MeasureTheory.Measure.Haar.OfBasis

/-! # Detailed balance of involutive Metropolis steps -/

set_option linter.unusedSectionVars false

namespace Stochopy
open MeasureTheory ProbabilityTheory Spec Sampling
open scoped ENNReal

/-- The acceptance test on finite values. -/
theorem metropolis_exp {d u : ℝ} (h0 : 0 ≤ u) (h1 : u < 1) : metropolis (Val.fin d) u = true ↔ u < Real.exp d := by
  rw [metropolis_iff h0 h1]
  show (0 ≤ d ∨ u = 0 ∨ Real.log u < d) ↔ _
  constructor
  · rintro (h | h | h)
    · exact lt_of_lt_of_le h1 (Real.one_le_exp h)
    · rw [h]; exact Real.exp_pos d
    · by_cases hu : u = 0
      · rw [hu]; exact Real.exp_pos d
      · exact (Real.log_lt_iff_lt_exp (lt_of_le_of_ne h0 (Ne.symm hu))).1 h
  · intro h
    by_cases hu : u = 0
    · exact Or.inr (Or.inl hu)
    · exact Or.inr (Or.inr ((Real.log_lt_iff_lt_exp (lt_of_le_of_ne h0 (Ne.symm hu))).2 h))

/-- The probability of acceptance. -/
theorem unifLaw_metropolis (d : ℝ) : unifLaw {u | metropolis (Val.fin d) u = true} = ENNReal.ofReal (min 1 (Real.exp d)) := by
  have hs : MeasurableSet {u : ℝ | u < Real.exp d} := measurableSet_Iio
  have : unifLaw {u | metropolis (Val.fin d) u = true} = unifLaw {u : ℝ | u < Real.exp d} := by
    refine measure_congr ?_
    unfold unifLaw
    rw [Filter.eventuallyEq_set]
    refine (ae_restrict_mem measurableSet_Ico).mono ?_
    intro u hu
    exact metropolis_exp hu.1 hu.2
  rw [this]
  unfold unifLaw
  rw [Measure.restrict_apply hs]
  have h2 : {u : ℝ | u < Real.exp d} ∩ Set.Ico 0 1 = Set.Ico 0 (min 1 (Real.exp d)) := by
    ext u
    simp only [Set.mem_inter_iff, Set.mem_ofPred_eq, Set.mem_Ico, lt_min_iff]
    tauto
  rw [h2, Real.volume_Ico, sub_zero]

instance : IsProbabilityMeasure unifLaw := ⟨by unfold unifLaw; simp⟩

/-- Acceptance probability of a drop `d` of the energy. -/
noncomputable def acc (d : ℝ) : ℝ≥0∞ := ENNReal.ofReal (min 1 (Real.exp d))

theorem acc_le_one (d : ℝ) : acc d ≤ 1 := by
  unfold acc
  rw [← ENNReal.ofReal_one]
  exact ENNReal.ofReal_le_ofReal (min_le_left _ _)

theorem acc_mul (a b : ℝ) : ENNReal.ofReal (Real.exp (-a)) * acc (a - b) =
    ENNReal.ofReal (min (Real.exp (-a)) (Real.exp (-b))) := by
  unfold acc
  rw [← ENNReal.ofReal_mul (Real.exp_pos _).le, mul_min_of_nonneg _ _ (Real.exp_pos _).le, mul_one, ← Real.exp_add]
  congr 3
  ring

variable {E Ω : Type} [MeasurableSpace E] [MeasurableSpace Ω]

/-- Balance on the extended space. -/
theorem involution_balance {μ : Measure Ω} {T : Ω → Ω} (hT : MeasurePreserving T μ μ) (hinv : ∀ ω, T (T ω) = ω)
    {h : Ω → ℝ} (hh : Measurable h) {X : Ω → E} (hX : Measurable X) {A B : Set E} (hA : MeasurableSet A)
    (hB : MeasurableSet B) :
    ∫⁻ ω, ENNReal.ofReal (Real.exp (-h ω)) * (A.indicator 1 (X ω) *
      (acc (h ω - h (T ω)) * B.indicator 1 (X (T ω)) + (1 - acc (h ω - h (T ω))) * B.indicator 1 (X ω))) ∂μ =
    ∫⁻ ω, ENNReal.ofReal (Real.exp (-h ω)) * (B.indicator 1 (X ω) *
      (acc (h ω - h (T ω)) * A.indicator 1 (X (T ω)) + (1 - acc (h ω - h (T ω))) * A.indicator 1 (X ω))) ∂μ := by
  have hmA : Measurable fun x : E => A.indicator (1 : E → ℝ≥0∞) x := measurable_one.indicator hA
  have hmB : Measurable fun x : E => B.indicator (1 : E → ℝ≥0∞) x := measurable_one.indicator hB
  have hmT := hT.measurable
  have hmin : Measurable fun ω => ENNReal.ofReal (min (Real.exp (-h ω)) (Real.exp (-h (T ω)))) := by fun_prop
  have split : ∀ C D : Set E, ∀ ω, ENNReal.ofReal (Real.exp (-h ω)) * (C.indicator 1 (X ω) *
      (acc (h ω - h (T ω)) * D.indicator 1 (X (T ω)) + (1 - acc (h ω - h (T ω))) * D.indicator 1 (X ω))) =
      ENNReal.ofReal (min (Real.exp (-h ω)) (Real.exp (-h (T ω)))) * (C.indicator 1 (X ω) * D.indicator 1 (X (T ω))) +
      ENNReal.ofReal (Real.exp (-h ω)) * (1 - acc (h ω - h (T ω))) * (C.indicator 1 (X ω) * D.indicator 1 (X ω)) := by
    intro C D ω
    rw [← acc_mul]
    ring
  simp_rw [split]
  rw [lintegral_add_left (by exact hmin.mul ((hmA.comp hX).mul (hmB.comp (hX.comp hmT)))),
    lintegral_add_left (by exact hmin.mul ((hmB.comp hX).mul (hmA.comp (hX.comp hmT))))]
  congr 1
  · have hF : Measurable fun ω => ENNReal.ofReal (min (Real.exp (-h ω)) (Real.exp (-h (T ω)))) *
        (A.indicator (1 : E → ℝ≥0∞) (X ω) * B.indicator (1 : E → ℝ≥0∞) (X (T ω))) :=
      hmin.mul ((hmA.comp hX).mul (hmB.comp (hX.comp hmT)))
    rw [← hT.lintegral_comp hF]
    refine lintegral_congr fun ω => ?_
    simp only [hinv]
    rw [min_comm, mul_comm (A.indicator 1 (X (T ω)))]
  · refine lintegral_congr fun ω => ?_
    rw [mul_comm (A.indicator 1 (X ω))]

/-- Balance of the transition: `z` is drawn from `ν`, then the first component of `T (x, z)` is accepted or not. -/
theorem metropolis_flow {Z : Type} [MeasurableSpace Z] {ν : Measure Z} [SFinite ν] {base : Measure E}
    {μ : Measure (E × Z)} {T : E × Z → E × Z} (hT : MeasurePreserving T μ μ)
    (hinv : ∀ ω, T (T ω) = ω) {h : E × Z → ℝ} (hh : Measurable h) {w : E → ℝ} {c : ℝ≥0∞}
    (hμ : ∀ F : E × Z → ℝ≥0∞, Measurable F → ∫⁻ x, ∫⁻ z, ENNReal.ofReal (w x) * F (x, z) ∂ν ∂base =
      c * ∫⁻ ω, ENNReal.ofReal (Real.exp (-h ω)) * F ω ∂μ) (A B : Set E) (hA : MeasurableSet A) (hB : MeasurableSet B) :
    ∫⁻ x in A, ENNReal.ofReal (w x) * (ν.prod unifLaw)
      {ω | (if metropolis (Val.fin (h (x, ω.1) - h (T (x, ω.1)))) ω.2 = true then (T (x, ω.1)).1 else x) ∈ B} ∂base =
    ∫⁻ x in B, ENNReal.ofReal (w x) * (ν.prod unifLaw)
      {ω | (if metropolis (Val.fin (h (x, ω.1) - h (T (x, ω.1)))) ω.2 = true then (T (x, ω.1)).1 else x) ∈ A} ∂base := by
  have hmT := hT.measurable
  -- the set of random inputs leading to `B`
  have hmeas : ∀ x, MeasurableSet {ω : Z × ℝ | ω.2 < Real.exp (h (x, ω.1) - h (T (x, ω.1)))} := by
    intro x
    refine measurableSet_lt measurable_snd ?_
    have h1 : Measurable fun ω : Z × ℝ => (x, ω.1) := measurable_const.prodMk measurable_fst
    exact Real.measurable_exp.comp ((hh.comp h1).sub ((hh.comp hmT).comp h1))
  have hprob : ∀ (B : Set (E)), MeasurableSet B → ∀ x, (ν.prod unifLaw)
      {ω | (if metropolis (Val.fin (h (x, ω.1) - h (T (x, ω.1)))) ω.2 = true then (T (x, ω.1)).1 else x) ∈ B} =
      ∫⁻ z, (acc (h (x, z) - h (T (x, z))) * B.indicator 1 (T (x, z)).1 +
        (1 - acc (h (x, z) - h (T (x, z)))) * B.indicator 1 x) ∂ν := by
    intro B hB x
    have hset : MeasurableSet {ω : Z × ℝ | (if ω.2 < Real.exp (h (x, ω.1) - h (T (x, ω.1))) then (T (x, ω.1)).1 else x) ∈ B} := by
      have h1 : Measurable fun ω : Z × ℝ => (x, ω.1) := measurable_const.prodMk measurable_fst
      have : Measurable fun ω : Z × ℝ => if ω.2 < Real.exp (h (x, ω.1) - h (T (x, ω.1))) then (T (x, ω.1)).1 else x :=
        Measurable.ite (hmeas x) (measurable_fst.comp (hmT.comp h1)) measurable_const
      exact this hB
    have hae : ∀ᵐ ω ∂(ν.prod unifLaw), ω.2 ∈ Set.Ico (0 : ℝ) 1 := by
      unfold unifLaw
      have h1 : ∀ᵐ u ∂(volume.restrict (Set.Ico (0 : ℝ) 1)), u ∈ Set.Ico (0 : ℝ) 1 := ae_restrict_mem measurableSet_Ico
      exact Measure.quasiMeasurePreserving_snd.ae h1
    have hcongr : (ν.prod unifLaw)
        {ω | (if metropolis (Val.fin (h (x, ω.1) - h (T (x, ω.1)))) ω.2 = true then (T (x, ω.1)).1 else x) ∈ B} =
        (ν.prod unifLaw) {ω : Z × ℝ | (if ω.2 < Real.exp (h (x, ω.1) - h (T (x, ω.1))) then (T (x, ω.1)).1 else x) ∈ B} := by
      refine measure_congr ?_
      rw [Filter.eventuallyEq_set]
      refine hae.mono ?_
      intro ω hω
      have := metropolis_exp (d := h (x, ω.1) - h (T (x, ω.1))) hω.1 hω.2
      show (if _ then _ else _) ∈ B ↔ (if _ then _ else _) ∈ B
      by_cases hc : ω.2 < Real.exp (h (x, ω.1) - h (T (x, ω.1)))
      · rw [if_pos hc, if_pos (this.2 hc)]
      · rw [if_neg hc, if_neg (fun h => hc (this.1 h))]
    rw [hcongr, Measure.prod_apply hset]
    refine lintegral_congr fun z => ?_
    set d := h (x, z) - h (T (x, z)) with hd
    have hpre : (Prod.mk z ⁻¹' {ω : Z × ℝ | (if ω.2 < Real.exp (h (x, ω.1) - h (T (x, ω.1))) then (T (x, ω.1)).1 else x) ∈ B}) =
        {u : ℝ | (if u < Real.exp d then (T (x, z)).1 else x) ∈ B} := rfl
    rw [hpre]
    have hacc : unifLaw {u : ℝ | u < Real.exp d} = acc d := by
      unfold acc
      rw [← unifLaw_metropolis]
      refine measure_congr ?_
      unfold unifLaw
      rw [Filter.eventuallyEq_set]
      refine (ae_restrict_mem measurableSet_Ico).mono ?_
      intro u hu
      exact (metropolis_exp hu.1 hu.2).symm
    have hcompl : unifLaw {u : ℝ | u < Real.exp d}ᶜ = 1 - acc d := by
      have hm : MeasurableSet {u : ℝ | u < Real.exp d} := measurableSet_Iio
      rw [measure_compl hm (measure_ne_top _ _), measure_univ, hacc]
    by_cases h1 : (T (x, z)).1 ∈ B
    · by_cases h2 : x ∈ B
      · have : {u : ℝ | (if u < Real.exp d then (T (x, z)).1 else x) ∈ B} = Set.univ := by
          ext u; simp only [Set.mem_ofPred_eq, Set.mem_univ, iff_true]; split_ifs <;> assumption
        rw [this, measure_univ, Set.indicator_of_mem h1, Set.indicator_of_mem h2, Pi.one_apply, Pi.one_apply, mul_one,
          mul_one, add_tsub_cancel_of_le (acc_le_one d)]
      · have : {u : ℝ | (if u < Real.exp d then (T (x, z)).1 else x) ∈ B} = {u : ℝ | u < Real.exp d} := by
          ext u; simp only [Set.mem_ofPred_eq]; split_ifs with hc <;> simp [h1, h2, hc]
        rw [this, hacc, Set.indicator_of_mem h1, Set.indicator_of_notMem h2, Pi.one_apply, mul_one, mul_zero, add_zero]
    · by_cases h2 : x ∈ B
      · have : {u : ℝ | (if u < Real.exp d then (T (x, z)).1 else x) ∈ B} = {u : ℝ | u < Real.exp d}ᶜ := by
          ext u; simp only [Set.mem_ofPred_eq, Set.mem_compl_iff]; split_ifs with hc <;> simp [h1, h2, hc]
        rw [this, hcompl, Set.indicator_of_notMem h1, Set.indicator_of_mem h2, Pi.one_apply, mul_one, mul_zero, zero_add]
      · have : {u : ℝ | (if u < Real.exp d then (T (x, z)).1 else x) ∈ B} = ∅ := by
          ext u; simp only [Set.mem_ofPred_eq, Set.mem_empty_iff_false, iff_false]; split_ifs <;> assumption
        rw [this, measure_empty, Set.indicator_of_notMem h1, Set.indicator_of_notMem h2]
        simp
  have hacc_meas : Measurable fun ω : E × Z => acc (h ω - h (T ω)) := by
    unfold acc
    exact ENNReal.measurable_ofReal.comp (measurable_const.min (Real.measurable_exp.comp (hh.sub (hh.comp hmT))))
  have hflow : ∀ A B : Set (E), MeasurableSet A → MeasurableSet B →
      ∫⁻ x in A, ENNReal.ofReal (w x) * (ν.prod unifLaw)
        {ω | (if metropolis (Val.fin (h (x, ω.1) - h (T (x, ω.1)))) ω.2 = true then (T (x, ω.1)).1 else x) ∈ B} ∂base =
      c * ∫⁻ ω, ENNReal.ofReal (Real.exp (-h ω)) * (A.indicator 1 ω.1 *
        (acc (h ω - h (T ω)) * B.indicator 1 (T ω).1 + (1 - acc (h ω - h (T ω))) * B.indicator 1 ω.1)) ∂μ := by
    intro A B hA hB
    have hmA : Measurable fun x : E => A.indicator (1 : E → ℝ≥0∞) x := measurable_one.indicator hA
    have hmB : Measurable fun x : E => B.indicator (1 : E → ℝ≥0∞) x := measurable_one.indicator hB
    have hG : Measurable fun ω : E × Z => (acc (h ω - h (T ω)) * B.indicator (1 : E → ℝ≥0∞) (T ω).1 +
        (1 - acc (h ω - h (T ω))) * B.indicator (1 : E → ℝ≥0∞) ω.1) :=
      (hacc_meas.mul (hmB.comp (measurable_fst.comp hmT))).add
        ((measurable_const.sub hacc_meas).mul (hmB.comp measurable_fst))
    have hAG : Measurable fun ω : E × Z => A.indicator (1 : E → ℝ≥0∞) ω.1 *
        (acc (h ω - h (T ω)) * B.indicator (1 : E → ℝ≥0∞) (T ω).1 +
        (1 - acc (h ω - h (T ω))) * B.indicator (1 : E → ℝ≥0∞) ω.1) := (hmA.comp measurable_fst).mul hG
    rw [← hμ _ hAG, ← lintegral_indicator hA]
    refine lintegral_congr fun x => ?_
    have hGx : Measurable fun z => (acc (h (x, z) - h (T (x, z))) * B.indicator (1 : E → ℝ≥0∞) (T (x, z)).1 +
        (1 - acc (h (x, z) - h (T (x, z)))) * B.indicator (1 : E → ℝ≥0∞) x) :=
      hG.comp (measurable_const.prodMk measurable_id)
    by_cases hx : x ∈ A
    · rw [Set.indicator_of_mem hx, hprob B hB x, ← lintegral_const_mul _ hGx]
      refine lintegral_congr fun z => ?_
      rw [Set.indicator_of_mem hx, Pi.one_apply, one_mul]
    · rw [Set.indicator_of_notMem hx]
      symm
      rw [← lintegral_zero (μ := ν)]
      refine lintegral_congr fun z => ?_
      rw [Set.indicator_of_notMem hx]
      simp
  rw [hflow A B hA hB, hflow B A hB hA]
  congr 1
  exact involution_balance hT hinv hh measurable_fst hA hB

/-- The same on `ℝⁿ`. -/
theorem metropolis_balance {n : Nat} {Z : Type} [MeasurableSpace Z] {ν : Measure Z} [SFinite ν]
    {μ : Measure (Vec ℝ n × Z)} {T : Vec ℝ n × Z → Vec ℝ n × Z} (hT : MeasurePreserving T μ μ)
    (hinv : ∀ ω, T (T ω) = ω) {h : Vec ℝ n × Z → ℝ} (hh : Measurable h) {w : Vec ℝ n → ℝ} {c : ℝ≥0∞}
    (hμ : ∀ F : Vec ℝ n × Z → ℝ≥0∞, Measurable F → ∫⁻ x, ∫⁻ z, ENNReal.ofReal (w x) * F (x, z) ∂ν =
      c * ∫⁻ ω, ENNReal.ofReal (Real.exp (-h ω)) * F ω ∂μ) :
    DetailedBalance (ν.prod unifLaw)
      (fun x ω => if metropolis (Val.fin (h (x, ω.1) - h (T (x, ω.1)))) ω.2 = true then (T (x, ω.1)).1 else x) w :=
  metropolis_flow hT hinv hh hμ

/-! ## Random walk -/

theorem gauss_neg (n : Nat) : MeasurePreserving (fun z : Vec ℝ n => -z) (gauss n) (gauss n) := by
  have h : MeasurePreserving (fun x : ℝ => -x) (gaussianReal 0 1) (gaussianReal 0 1) :=
    ⟨measurable_neg, by rw [gaussianReal_map_neg, neg_zero]⟩
  exact measurePreserving_pi _ _ fun _ => h

instance (n : Nat) : IsProbabilityMeasure (gauss n) := by unfold gauss; infer_instance

/-- The displacement of a block. -/
def shift {n : Nat} (scale : Vec ℝ n) (per b : Nat) (z : Vec ℝ n) : Vec ℝ n := fun c =>
  if c.val / per = b then z c * scale c else 0

theorem blockMove_eq {n : Nat} (scale : Vec ℝ n) (per b : Nat) (x z : Vec ℝ n) :
    blockMove scale per b x z = x + shift scale per b z := by
  funext c
  show (if _ then _ else _) = x c + (if _ then _ else _)
  split_ifs
  · rfl
  · rw [add_zero]

theorem shift_neg {n : Nat} (scale : Vec ℝ n) (per b : Nat) (z : Vec ℝ n) :
    shift scale per b (-z) = - shift scale per b z := by
  funext c
  show (if _ then (-z) c * _ else _) = - (if _ then _ else _)
  split_ifs
  · exact neg_mul _ _
  · rw [neg_zero]

theorem measurable_shift {n : Nat} (scale : Vec ℝ n) (per b : Nat) : Measurable (shift scale per b) := by
  refine measurable_pi_lambda _ fun c => ?_
  unfold shift
  split_ifs
  · exact (measurable_pi_apply c).mul_const _
  · exact measurable_const

/-- The move and its reversal. -/
def walkMap {n : Nat} (scale : Vec ℝ n) (per b : Nat) (ω : Vec ℝ n × Vec ℝ n) : Vec ℝ n × Vec ℝ n :=
  (blockMove scale per b ω.1 ω.2, -ω.2)

theorem walkMap_walkMap {n : Nat} (scale : Vec ℝ n) (per b : Nat) (ω : Vec ℝ n × Vec ℝ n) :
    walkMap scale per b (walkMap scale per b ω) = ω := by
  unfold walkMap
  simp only [blockMove_eq, shift_neg, neg_neg, add_neg_cancel_right]

theorem walkMap_preserving {n : Nat} (scale : Vec ℝ n) (per b : Nat) :
    MeasurePreserving (walkMap scale per b) ((volume : Measure (Vec ℝ n)).prod (gauss n)) (volume.prod (gauss n)) := by
  have h1 : MeasurePreserving (fun p : Vec ℝ n × Vec ℝ n => (-p.1, p.2 + shift scale per b p.1))
      ((gauss n).prod volume) ((gauss n).prod volume) :=
    (gauss_neg n).skew_product (g := fun z x => x + shift scale per b z)
      (measurable_snd.add ((measurable_shift scale per b).comp measurable_fst))
      (Filter.Eventually.of_forall fun z => map_add_right_eq_self _ _)
  have h2 := (Measure.measurePreserving_swap (μ := gauss n) (ν := (volume : Measure (Vec ℝ n)))).comp
    (h1.comp (Measure.measurePreserving_swap (μ := (volume : Measure (Vec ℝ n))) (ν := gauss n)))
  have he : walkMap scale per b = Prod.swap ∘ (fun p : Vec ℝ n × Vec ℝ n => (-p.1, p.2 + shift scale per b p.1)) ∘ Prod.swap := by
    funext ω
    show (_, _) = (_, _)
    rw [blockMove_eq]
    rfl
  rw [he]
  exact h2

/-- Detailed balance of one iteration of the random walk sampler. -/
theorem walk_balance {n : Nat} {f : Vec ℝ n → ℝ} (hf : Measurable f) (scale : Vec ℝ n) (per b : Nat) :
    DetailedBalance ((gauss n).prod unifLaw) (walkStep f scale per b) fun x => Real.exp (- f x) := by
  have := metropolis_balance (ν := gauss n) (walkMap_preserving scale per b) (walkMap_walkMap scale per b)
    (h := fun ω => f ω.1) (hf.comp measurable_fst) (w := fun x => Real.exp (- f x)) (c := 1) (by
      intro F hF
      have hm : Measurable fun ω : Vec ℝ n × Vec ℝ n => ENNReal.ofReal (Real.exp (-f ω.1)) * F ω :=
        (ENNReal.measurable_ofReal.comp (Real.measurable_exp.comp (hf.comp measurable_fst).neg)).mul hF
      rw [one_mul, lintegral_prod _ hm.aemeasurable])
  have he : walkStep f scale per b = (fun x (ω : Vec ℝ n × ℝ) =>
      if metropolis (Val.fin (f (x, ω.1).1 - f (walkMap scale per b (x, ω.1)).1)) ω.2 = true
      then (walkMap scale per b (x, ω.1)).1 else x) := by
    funext x ω
    show (if _ then _ else _) = (if _ then _ else _)
    rw [Val.fin_sub]
    rfl
  rw [he]
  exact this

/-! ## Hamiltonian dynamics -/

/-- `(q, p) ↦ (q, p - ε/2 γ(q))`. -/
noncomputable def halfKick {n : Nat} (γ : Vec ℝ n → Vec ℝ n) (ε : Vec ℝ n) (z : Vec ℝ n × Vec ℝ n) : Vec ℝ n × Vec ℝ n :=
  (z.1, z.2 + fun j => - (ε j / 2 * γ z.1 j))

theorem verlet_eq {n : Nat} (γ : Vec ℝ n → Vec ℝ n) (ε : Vec ℝ n) :
    verlet γ ε = halfKick γ ε ∘ HMC.driftK ε ∘ halfKick γ ε := by
  funext z
  have h : ∀ j, z.2 j - ε j / 2 * γ z.1 j = (z.2 + fun j => - (ε j / 2 * γ z.1 j)) j := fun j => sub_eq_add_neg _ _
  unfold verlet
  simp only [h]
  show (_, _) = (_, _)
  congr 1

theorem halfKick_preserving {n : Nat} {γ : Vec ℝ n → Vec ℝ n} (hγ : Measurable γ) (ε : Vec ℝ n) :
    MeasurePreserving (halfKick γ ε) ((volume : Measure (Vec ℝ n)).prod volume) (volume.prod volume) := by
  have hm : Measurable fun q : Vec ℝ n => (fun j => - (ε j / 2 * γ q j) : Vec ℝ n) :=
    measurable_pi_lambda _ fun j => (((measurable_pi_apply j).comp hγ).const_mul _).neg
  exact (MeasurePreserving.id _).skew_product (g := fun q p => p + fun j => - (ε j / 2 * γ q j))
    (measurable_snd.add (hm.comp measurable_fst)) (Filter.Eventually.of_forall fun q => map_add_right_eq_self _ _)

theorem drift_preserving {n : Nat} (ε : Vec ℝ n) :
    MeasurePreserving (HMC.driftK ε) ((volume : Measure (Vec ℝ n)).prod volume) (volume.prod volume) := by
  have hm : Measurable fun p : Vec ℝ n => (fun j => ε j * p j : Vec ℝ n) :=
    measurable_pi_lambda _ fun j => (measurable_pi_apply j).const_mul _
  have h1 : MeasurePreserving (fun z : Vec ℝ n × Vec ℝ n => (z.1, z.2 + fun j => ε j * z.1 j))
      ((volume : Measure (Vec ℝ n)).prod volume) (volume.prod volume) :=
    (MeasurePreserving.id _).skew_product (g := fun (p q : Vec ℝ n) => q + fun j => ε j * p j)
      (measurable_snd.add (hm.comp measurable_fst)) (Filter.Eventually.of_forall fun q => map_add_right_eq_self _ _)
  have hs : MeasurePreserving Prod.swap ((volume : Measure (Vec ℝ n)).prod (volume : Measure (Vec ℝ n)))
      (volume.prod volume) := Measure.measurePreserving_swap
  exact hs.comp (h1.comp hs)

theorem verlet_preserving {n : Nat} {γ : Vec ℝ n → Vec ℝ n} (hγ : Measurable γ) (ε : Vec ℝ n) :
    MeasurePreserving (verlet γ ε) ((volume : Measure (Vec ℝ n)).prod volume) (volume.prod volume) := by
  rw [verlet_eq]
  exact (halfKick_preserving hγ ε).comp ((drift_preserving ε).comp (halfKick_preserving hγ ε))

theorem flip_preserving {n : Nat} :
    MeasurePreserving (HMC.flip : Vec ℝ n × Vec ℝ n → _) ((volume : Measure (Vec ℝ n)).prod volume) (volume.prod volume) :=
  (MeasurePreserving.id _).prod (Measure.measurePreserving_neg (volume : Measure (Vec ℝ n)))

theorem hamiltonian_flip {n : Nat} (f : Vec ℝ n → ℝ) (z : Vec ℝ n × Vec ℝ n) :
    hamiltonian f (HMC.flip z) = hamiltonian f z := by
  unfold hamiltonian HMC.flip
  simp only [neg_sq]

theorem measurable_hamiltonian {n : Nat} {f : Vec ℝ n → ℝ} (hf : Measurable f) : Measurable (hamiltonian f) := by
  unfold hamiltonian
  refine (hf.comp measurable_fst).add (Measurable.div_const ?_ 2)
  exact Finset.measurable_sum _ fun j _ => ((measurable_pi_apply j).comp measurable_snd).pow_const 2

theorem lintegral_pi_prod : ∀ {n : Nat} (f : Fin n → ℝ → ℝ≥0∞), (∀ i, Measurable (f i)) →
    ∫⁻ x : Vec ℝ n, ∏ i, f i (x i) = ∏ i, ∫⁻ t, f i t
  | 0, f, _ => by
    simp only [Finset.univ_eq_empty, Finset.prod_empty, lintegral_const, one_mul]
    rw [volume_pi]
    simp
  | n + 1, f, hf => by
    have e := (volume_preserving_piFinSuccAbove (fun _ : Fin (n + 1) => ℝ) 0).symm
    rw [← e.lintegral_comp_emb (MeasurableEquiv.measurableEmbedding _)]
    have h : ∀ x : ℝ × (Fin n → ℝ), (∏ i, f i ((MeasurableEquiv.piFinSuccAbove (fun _ : Fin (n + 1) => ℝ) 0).symm x i)) =
        f 0 x.1 * ∏ i, f (Fin.succ i) (x.2 i) := by
      intro x
      rw [Fin.prod_univ_succ]
      rfl
    simp only [h]
    have hrest : Measurable fun y : Fin n → ℝ => ∏ i, f (Fin.succ i) (y i) :=
      Finset.measurable_fun_prod _ fun i _ => (hf i.succ).comp (measurable_pi_apply i)
    rw [show (volume : Measure (ℝ × (Fin n → ℝ))) = volume.prod volume from rfl,
      lintegral_prod_mul (hf 0).aemeasurable hrest.aemeasurable,
      Fin.prod_univ_succ, lintegral_pi_prod (fun i => f i.succ) fun i => hf i.succ]

theorem gauss_density (n : Nat) : gauss n = (volume : Measure (Vec ℝ n)).withDensity
    fun z => ENNReal.ofReal (Real.sqrt (2 * Real.pi))⁻¹ ^ n * ENNReal.ofReal (Real.exp (-((∑ j, z j ^ 2) / 2))) := by
  have hρ : ∀ z : Vec ℝ n, ENNReal.ofReal (Real.sqrt (2 * Real.pi))⁻¹ ^ n *
      ENNReal.ofReal (Real.exp (-((∑ j, z j ^ 2) / 2))) = ∏ i, gaussianPDF 0 1 (z i) := by
    intro z
    simp only [gaussianPDF_def, gaussianPDFReal, NNReal.coe_one, mul_one, sub_zero]
    rw [← ENNReal.ofReal_prod_of_nonneg (fun i _ => mul_nonneg (inv_nonneg.2 (Real.sqrt_nonneg _)) (Real.exp_pos _).le),
      Finset.prod_mul_distrib, Finset.prod_const, Finset.card_univ, Fintype.card_fin, ← Real.exp_sum,
      ENNReal.ofReal_mul (pow_nonneg (inv_nonneg.2 (Real.sqrt_nonneg _)) _),
      ENNReal.ofReal_pow (inv_nonneg.2 (Real.sqrt_nonneg _))]
    congr 3
    rw [Finset.sum_div, ← Finset.sum_neg_distrib]
    exact Finset.sum_congr rfl fun i _ => (neg_div _ _).symm
  simp only [hρ]
  symm
  unfold gauss
  refine (Measure.pi_eq fun s hs => ?_).symm
  rw [withDensity_apply _ (MeasurableSet.univ_pi hs), ← lintegral_indicator (MeasurableSet.univ_pi hs)]
  have hind : ∀ z : Vec ℝ n, (Set.univ.pi s).indicator (fun z : Vec ℝ n => ∏ i, gaussianPDF 0 1 (z i)) z =
      ∏ i, (s i).indicator (gaussianPDF 0 1) (z i) := by
    intro z
    by_cases hz : z ∈ Set.univ.pi s
    · rw [Set.indicator_of_mem hz]
      exact Finset.prod_congr rfl fun i _ => (Set.indicator_of_mem (hz i (Set.mem_univ i)) _).symm
    · rw [Set.indicator_of_notMem hz]
      have : ∃ i, z i ∉ s i := by
        by_contra hc
        push Not at hc
        exact hz fun i _ => hc i
      obtain ⟨i, hi⟩ := this
      exact (Finset.prod_eq_zero (Finset.mem_univ i) (Set.indicator_of_notMem hi _)).symm
  simp only [hind]
  rw [lintegral_pi_prod _ fun i => (measurable_gaussianPDF 0 1).indicator (hs i)]
  refine Finset.prod_congr rfl fun i _ => ?_
  rw [lintegral_indicator (hs i), gaussianReal_of_var_ne_zero 0 one_ne_zero, withDensity_apply _ (hs i)]

/-- Leap-frog steps followed by a reversal of the momentum undo themselves. -/
theorem verlet_reverse {n : Nat} (γ : Vec ℝ n → Vec ℝ n) (ε : Vec ℝ n) (L : Nat) (z : Vec ℝ n × Vec ℝ n) :
    HMC.flip ((verlet γ ε)^[L] (HMC.flip ((verlet γ ε)^[L] z))) = z := by
  have h1 : HMC.Rev (verlet γ ε) (verlet γ ε) := by
    have := HMC.leapK_rev γ ε 0
    have he : HMC.leapK γ ε 0 = verlet γ ε := funext fun z => HMC.leapK_eq γ ε 0 z
    rw [he] at this
    exact this
  rw [HMC.rev_iterate h1 L z, HMC.flip_flip]

/-- Detailed balance of one iteration of the Hamiltonian sampler. -/
theorem hamiltonian_balance {n : Nat} {f : Vec ℝ n → ℝ} (hf : Measurable f) {γ : Vec ℝ n → Vec ℝ n} (hγ : Measurable γ)
    (ε : Vec ℝ n) (L : Nat) :
    DetailedBalance ((gauss n).prod unifLaw) (hamiltonianStep f γ ε L) fun x => Real.exp (- f x) := by
  have hT : MeasurePreserving (HMC.flip ∘ (verlet γ ε)^[L]) ((volume : Measure (Vec ℝ n)).prod volume)
      (volume.prod volume) := flip_preserving.comp ((verlet_preserving hγ ε).iterate L)
  have := metropolis_balance (ν := gauss n) hT (fun ω => verlet_reverse γ ε L ω)
    (h := hamiltonian f) (measurable_hamiltonian hf) (w := fun x => Real.exp (- f x))
    (c := ENNReal.ofReal (Real.sqrt (2 * Real.pi))⁻¹ ^ n) (by
      intro F hF
      have hE : Measurable fun ω : Vec ℝ n × Vec ℝ n => ENNReal.ofReal (Real.exp (-hamiltonian f ω)) :=
        ENNReal.measurable_ofReal.comp (Real.measurable_exp.comp (measurable_hamiltonian hf).neg)
      have hEF : Measurable fun ω : Vec ℝ n × Vec ℝ n => ENNReal.ofReal (Real.exp (-hamiltonian f ω)) * F ω := hE.mul hF
      rw [← lintegral_const_mul _ hEF, lintegral_prod _ (hEF.const_mul _).aemeasurable]
      refine lintegral_congr fun x => ?_
      have hd : Measurable fun z : Vec ℝ n => ENNReal.ofReal (Real.sqrt (2 * Real.pi))⁻¹ ^ n *
          ENNReal.ofReal (Real.exp (-((∑ j, z j ^ 2) / 2))) := by
        refine Measurable.const_mul (ENNReal.measurable_ofReal.comp (Real.measurable_exp.comp (Measurable.neg ?_))) _
        exact Measurable.div_const (Finset.measurable_sum _ fun j _ => (measurable_pi_apply j).pow_const 2) 2
      have hFx : Measurable fun z => ENNReal.ofReal (Real.exp (-f x)) * F (x, z) :=
        (hF.comp (measurable_const.prodMk measurable_id)).const_mul _
      rw [gauss_density, lintegral_withDensity_eq_lintegral_mul _ hd hFx]
      refine lintegral_congr fun z => ?_
      rw [Pi.mul_apply]
      have : Real.exp (-hamiltonian f (x, z)) = Real.exp (-((∑ j, z j ^ 2) / 2)) * Real.exp (-f x) := by
        rw [← Real.exp_add]
        congr 1
        unfold hamiltonian
        ring
      rw [this, ENNReal.ofReal_mul (Real.exp_pos _).le]
      ring)
  have he : hamiltonianStep f γ ε L = (fun x (ω : Vec ℝ n × ℝ) =>
      if metropolis (Val.fin (hamiltonian f (x, ω.1) - hamiltonian f ((HMC.flip ∘ (verlet γ ε)^[L]) (x, ω.1)))) ω.2 = true
      then ((HMC.flip ∘ (verlet γ ε)^[L]) (x, ω.1)).1 else x) := by
    funext x ω
    show (if _ then _ else _) = (if _ then _ else _)
    rw [Function.comp_apply, hamiltonian_flip]
    rfl
  rw [he]
  exact this

end Stochopy
