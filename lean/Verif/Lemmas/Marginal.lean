import Verif.Lemmas.EveryStart
import Verif.Lemmas.Ergodic
import Verif.Lemmas.Ideal
import Verif.Spec.Marginal

/-!
# Random walks on pairs of a point and the noise in its value
-/

set_option linter.unusedSectionVars false

namespace Stochopy
open Spec MeasureTheory ProbabilityTheory Filter Topology Sampling
open scoped ENNReal

/-! ## The law of large numbers for transitions in detailed balance, over any space -/

section General
variable {E Ω : Type} [MeasurableSpace E] [MeasurableSingletonClass E] [MeasurableSpace Ω] {base : Measure E} [SFinite base]
  {P : Measure Ω} [IsProbabilityMeasure P] {step : E → Ω → E} {w : E → ℝ}

theorem balance_average (hm : Measurable fun e : E × Ω => step e.1 e.2) (hw : Measurable w) (hw0 : ∀ x, 0 < w x)
    (hfin : ∫⁻ x, ENNReal.ofReal (w x) ∂base ≠ ∞) (hbase : base ≠ 0)
    (hb : ∀ A B : Set E, MeasurableSet A → MeasurableSet B →
      ∫⁻ x in A, ENNReal.ofReal (w x) * P {ω | step x ω ∈ B} ∂base = ∫⁻ x in B, ENNReal.ofReal (w x) * P {ω | step x ω ∈ A} ∂base)
    (hirr : ∀ B, MeasurableSet B → base B ≠ 0 → ∀ x, P {ω | step x ω ∈ B} ≠ 0)
    (hjump : ∀ x N, base N = 0 → P {r | step x r ≠ x ∧ step x r ∈ N} = 0) (hsingle : ∀ x, base {x} = 0)
    {h : E → ℝ} (hh : Measurable h) (hhi : Integrable (fun x => h x * w x) base) (x : E) :
    ∀ᵐ ω ∂(inputs P), Tendsto (fun m : Nat => (∑ k ∈ Finset.range m, h (chain (fun _ => step) x ω k)) / m) atTop
      (𝓝 ((∫ x, h x * w x ∂base) / ∫ x, w x ∂base)) := by
  have hd : Measurable fun x => ENNReal.ofReal (w x) := ENNReal.measurable_ofReal.comp hw
  set τ : Measure E := base.withDensity fun x => ENNReal.ofReal (w x) with hτ
  have hsf : SFinite τ := by rw [hτ]; infer_instance
  have hu : τ Set.univ = ∫⁻ x, ENNReal.ofReal (w x) ∂base := by
    rw [hτ, withDensity_apply _ MeasurableSet.univ, Measure.restrict_univ]
  have htop : τ Set.univ ≠ ∞ := by rw [hu]; exact hfin
  have hac : τ ≪ base := withDensity_absolutelyContinuous _ _
  have hca : base ≪ τ := withDensity_absolutelyContinuous' hd.aemeasurable
    (ae_of_all _ fun x => (ENNReal.ofReal_pos.2 (hw0 x)).ne')
  have hzero : τ Set.univ ≠ 0 := fun h0 => hbase (Measure.measure_univ_eq_zero.1 (hca h0))
  set π : Measure E := (τ Set.univ)⁻¹ • τ with hπ
  have hprob : IsProbabilityMeasure π := ⟨by
    rw [hπ, Measure.smul_apply, smul_eq_mul, ENNReal.inv_mul_cancel hzero htop]⟩
  have hπac : π ≪ base := Measure.AbsolutelyContinuous.smul_left hac _
  have hacπ : base ≪ π := by
    intro N hN
    rw [hπ, Measure.smul_apply, smul_eq_mul, mul_eq_zero] at hN
    exact hca (hN.resolve_left (ENNReal.inv_ne_zero.2 htop))
  have hinvτ : (τ.prod P).map (fun e => step e.1 e.2) = τ := by
    refine Measure.ext fun C hC => ?_
    rw [Measure.map_apply hm hC, Measure.prod_apply (hm hC)]
    have h1 := hb Set.univ C MeasurableSet.univ hC
    rw [Measure.restrict_univ] at h1
    have h2 : Measurable fun x => P {ω | step x ω ∈ C} := measurable_measure_prodMk_left (hm hC)
    show ∫⁻ x, P {ω | step x ω ∈ C} ∂τ = _
    rw [hτ, lintegral_withDensity_eq_lintegral_mul _ hd h2, withDensity_apply _ hC]
    refine Eq.trans h1 ?_
    refine lintegral_congr fun x => ?_
    rw [show {ω | step x ω ∈ Set.univ} = Set.univ from rfl, measure_univ, mul_one]
  have hinv : (π.prod P).map (fun e => step e.1 e.2) = π := by
    rw [hπ, Measure.prod_smul_left, Measure.map_smul, hinvτ]
  have hiπ : Integrable h π := by
    refine Integrable.smul_measure ?_ (ENNReal.inv_ne_top.2 hzero)
    rw [hτ, integrable_withDensity_iff hd (ae_of_all _ fun x => ENNReal.ofReal_lt_top)]
    refine hhi.congr (ae_of_all _ fun x => ?_)
    show h x * w x = h x * (ENNReal.ofReal (w x)).toReal
    rw [ENNReal.toReal_ofReal (hw0 x).le]
  have hmean : ∫ x, h x ∂π = (∫ x, h x * w x ∂base) / ∫ x, w x ∂base := by
    rw [hπ, integral_smul_measure, smul_eq_mul, ENNReal.toReal_inv]
    have h1 : (τ Set.univ).toReal = ∫ x, w x ∂base := by
      rw [hu, integral_eq_lintegral_of_nonneg_ae (ae_of_all _ fun x => (hw0 x).le) hw.aestronglyMeasurable]
    have h2 : ∫ x, h x ∂τ = ∫ x, h x * w x ∂base := by
      rw [hτ, integral_withDensity_eq_integral_toReal_smul hd (ae_of_all _ fun x => ENNReal.ofReal_lt_top)]
      refine integral_congr_ae (ae_of_all _ fun x => ?_)
      show (ENNReal.ofReal (w x)).toReal • h x = h x * w x
      rw [ENNReal.toReal_ofReal (hw0 x).le, smul_eq_mul, mul_comm]
    rw [h1, h2, div_eq_inv_mul]
  have hF : Measurable fun z : E × (Nat → Ω) => h z.1 := hh.comp measurable_fst
  have hFi : Integrable (fun z : E × (Nat → Ω) => h z.1) (π.prod (inputs P)) := hiπ.comp_fst _
  have h1 := chain_average hm hinv (fun B hB hB0 => ae_of_all _ fun x => hirr B hB (fun h0 => hB0 (hπac h0)) x) hF hFi
  have hI : ∫ z : E × (Nat → Ω), h z.1 ∂(π.prod (inputs P)) = (∫ x, h x * w x ∂base) / ∫ x, w x ∂base := by
    rw [← hmean, integral_fun_fst]
    simp
  rw [hI] at h1
  have h2 := Measure.ae_ae_of_ae_prod h1
  refine average_every (π := π) hm (fun x N hN => hjump x N (hacπ hN)) (fun x hx => ?_) hh (h2.mono fun x hx => hx.mono fun ω hω => ?_) x
  · refine hirr {x}ᶜ (measurableSet_singleton x).compl (fun h0 => hbase ?_) x hx
    rw [← Measure.measure_univ_eq_zero, ← Set.union_compl_self {x}]
    exact measure_union_null (hsingle x) h0
  · simpa only [advanceChain_iterate] using hω

end General

/-! ## Points with noise -/

section Noise
variable {n : Nat} {Ξ : Type} [MeasurableSpace Ξ] {ν : Measure Ξ} [IsProbabilityMeasure ν]

/-- Exchange of the inner components. -/
def innerSwap {A B C D : Type} (p : (A × B) × (C × D)) : (A × C) × (B × D) := ((p.1.1, p.2.1), (p.1.2, p.2.2))

theorem innerSwap_preserving {A B C D : Type} [MeasurableSpace A] [MeasurableSpace B] [MeasurableSpace C] [MeasurableSpace D]
    (α : Measure A) (β : Measure B) (γ : Measure C) (δ : Measure D) [SFinite α] [SFinite β] [SFinite γ] [SFinite δ] :
    MeasurePreserving (innerSwap : (A × B) × (C × D) → (A × C) × (B × D)) ((α.prod β).prod (γ.prod δ)) ((α.prod γ).prod (β.prod δ)) := by
  have e1 := measurePreserving_prodAssoc α β (γ.prod δ)
  have e2 := (MeasurePreserving.id α).prod (measurePreserving_prodAssoc β γ δ).symm
  have e3 := (MeasurePreserving.id α).prod ((Measure.measurePreserving_swap (μ := β) (ν := γ)).prod (MeasurePreserving.id δ))
  have e4 := (MeasurePreserving.id α).prod (measurePreserving_prodAssoc γ β δ)
  have e5 := (measurePreserving_prodAssoc α γ (β.prod δ)).symm
  exact e5.comp (e4.comp (e3.comp (e2.comp e1)))

/-- The move and its reversal. -/
def noisyMap (scale : Vec ℝ n) (per b : Nat) (ω : (Ξ × Vec ℝ n) × (Ξ × Vec ℝ n)) : (Ξ × Vec ℝ n) × (Ξ × Vec ℝ n) :=
  ((ω.2.1, blockMove scale per b ω.1.2 ω.2.2), (ω.1.1, -ω.2.2))

theorem noisyMap_noisyMap (scale : Vec ℝ n) (per b : Nat) (ω : (Ξ × Vec ℝ n) × (Ξ × Vec ℝ n)) :
    noisyMap scale per b (noisyMap scale per b ω) = ω := by
  unfold noisyMap
  simp only [blockMove_eq, shift_neg, neg_neg, add_neg_cancel_right]

theorem noisyMap_preserving (scale : Vec ℝ n) (per b : Nat) :
    MeasurePreserving (noisyMap scale per b : (Ξ × Vec ℝ n) × (Ξ × Vec ℝ n) → _) ((ν.prod volume).prod (ν.prod (gauss n)))
      ((ν.prod volume).prod (ν.prod (gauss n))) := by
  have h := (innerSwap_preserving ν ν (volume : Measure (Vec ℝ n)) (gauss n)).comp
    (((Measure.measurePreserving_swap (μ := ν) (ν := ν)).prod (walkMap_preserving scale per b)).comp
      (innerSwap_preserving ν (volume : Measure (Vec ℝ n)) ν (gauss n)))
  exact h

variable {F : Ξ → Vec ℝ n → ℝ}

/-- One iteration on pairs is in detailed balance with the joint density. -/
theorem noisyStep_balance (hF : Measurable fun e : Ξ × Vec ℝ n => F e.1 e.2) (scale : Vec ℝ n) (per b : Nat)
    (A B : Set (Ξ × Vec ℝ n)) (hA : MeasurableSet A) (hB : MeasurableSet B) :
    ∫⁻ e in A, ENNReal.ofReal (Real.exp (-F e.1 e.2)) * ((ν.prod (gauss n)).prod unifLaw) {ω | noisyStep F scale per b e ω ∈ B}
      ∂(ν.prod volume) =
    ∫⁻ e in B, ENNReal.ofReal (Real.exp (-F e.1 e.2)) * ((ν.prod (gauss n)).prod unifLaw) {ω | noisyStep F scale per b e ω ∈ A}
      ∂(ν.prod volume) := by
  have hF1 : Measurable fun ω : (Ξ × Vec ℝ n) × (Ξ × Vec ℝ n) => F ω.1.1 ω.1.2 := hF.comp measurable_fst
  have := metropolis_flow (ν := ν.prod (gauss n)) (base := ν.prod volume) (noisyMap_preserving (ν := ν) scale per b)
    (noisyMap_noisyMap scale per b) (h := fun ω => F ω.1.1 ω.1.2) hF1 (w := fun e => Real.exp (-F e.1 e.2)) (c := 1) (by
      intro G hG
      have hm : Measurable fun ω : (Ξ × Vec ℝ n) × (Ξ × Vec ℝ n) => ENNReal.ofReal (Real.exp (-F ω.1.1 ω.1.2)) * G ω :=
        (ENNReal.measurable_ofReal.comp (Real.measurable_exp.comp hF1.neg)).mul hG
      rw [one_mul, lintegral_prod _ hm.aemeasurable]) A B hA hB
  have he : noisyStep F scale per b = (fun (e : Ξ × Vec ℝ n) (ω : (Ξ × Vec ℝ n) × ℝ) =>
      if metropolis (Val.fin (F (e, ω.1).1.1 (e, ω.1).1.2 - F (noisyMap scale per b (e, ω.1)).1.1 (noisyMap scale per b (e, ω.1)).1.2))
        ω.2 = true then (noisyMap scale per b (e, ω.1)).1 else e) := by
    funext e ω
    show (if _ then _ else _) = (if _ then _ else _)
    rw [Val.fin_sub]
    rfl
  rw [he]
  exact this

theorem measurable_blockMove (scale : Vec ℝ n) (per b : Nat) :
    Measurable fun e : Vec ℝ n × Vec ℝ n => blockMove scale per b e.1 e.2 := by
  simp only [blockMove_eq]
  exact measurable_fst.add ((measurable_shift scale per b).comp measurable_snd)

theorem measurable_noisyStep (hF : Measurable fun e : Ξ × Vec ℝ n => F e.1 e.2) (scale : Vec ℝ n) (per b : Nat) :
    Measurable fun e : (Ξ × Vec ℝ n) × ((Ξ × Vec ℝ n) × ℝ) => noisyStep F scale per b e.1 e.2 := by
  have hp : Measurable fun e : (Ξ × Vec ℝ n) × ((Ξ × Vec ℝ n) × ℝ) => (e.2.1.1, blockMove scale per b e.1.2 e.2.1.2) :=
    (measurable_fst.comp (measurable_fst.comp measurable_snd)).prodMk ((measurable_blockMove scale per b).comp
      ((measurable_snd.comp measurable_fst).prodMk (measurable_snd.comp (measurable_fst.comp measurable_snd))))
  have hS := measurableSet_metropolis (d := fun e : (Ξ × Vec ℝ n) × ((Ξ × Vec ℝ n) × ℝ) =>
    F e.1.1 e.1.2 - F e.2.1.1 (blockMove scale per b e.1.2 e.2.1.2)) (u := fun e => e.2.2)
    ((hF.comp measurable_fst).sub (hF.comp hp)) (measurable_snd.comp measurable_snd)
  classical
  have he : (fun e : (Ξ × Vec ℝ n) × ((Ξ × Vec ℝ n) × ℝ) => noisyStep F scale per b e.1 e.2) = fun e =>
      if metropolis (Val.fin (F e.1.1 e.1.2 - F e.2.1.1 (blockMove scale per b e.1.2 e.2.1.2))) e.2.2 = true
      then (e.2.1.1, blockMove scale per b e.1.2 e.2.1.2) else e.1 := by
    funext e
    show (if _ then _ else _) = (if _ then _ else _)
    rw [Val.fin_sub]
  rw [he]
  exact Measurable.ite hS hp measurable_fst

/-- The proposal when all coordinates are moved. -/
theorem blockMove_all {scale : Vec ℝ n} {per : Nat} (hle : n ≤ per) (x z : Vec ℝ n) :
    blockMove scale per 0 x z = fun j => x j + scale j * z j := by
  funext j
  unfold blockMove
  rw [if_pos (Nat.div_eq_of_lt (lt_of_lt_of_le j.isLt hle)), mul_comm]

theorem noisyStep_eq (scale : Vec ℝ n) (per b : Nat) (e : Ξ × Vec ℝ n) (ω : (Ξ × Vec ℝ n) × ℝ) :
    noisyStep F scale per b e ω = if metropolis (Val.fin (F e.1 e.2 - F ω.1.1 (blockMove scale per b e.2 ω.1.2))) ω.2 = true
      then (ω.1.1, blockMove scale per b e.2 ω.1.2) else e := by
  show (if _ then _ else _) = (if _ then _ else _)
  rw [Val.fin_sub]

theorem noisyStep_avoid {scale : Vec ℝ n} {per b : Nat} {e : Ξ × Vec ℝ n} {p : Ξ × Vec ℝ n → Prop}
    (h : ∀ᵐ ω ∂((ν.prod (gauss n)).prod unifLaw), p (noisyStep F scale per b e ω)) :
    ∀ᵐ z ∂(ν.prod (gauss n)), p (z.1, blockMove scale per b e.2 z.2) := by
  refine metropolis_avoid (T := fun z : Ξ × Vec ℝ n => (z.1, blockMove scale per b e.2 z.2)) (x := e)
    (d := fun z => F e.1 e.2 - F z.1 (blockMove scale per b e.2 z.2)) (h.mono fun ω hω => ?_)
  rw [noisyStep_eq] at hω
  exact hω

theorem noisyStep_reach {scale : Vec ℝ n} (hs : ∀ c, scale c ≠ 0) {per : Nat}
    (hle : n ≤ per) {B : Set (Ξ × Vec ℝ n)} (hB : MeasurableSet B) (hv : (ν.prod volume) B ≠ 0) (e : Ξ × Vec ℝ n) :
    ((ν.prod (gauss n)).prod unifLaw) {ω | noisyStep F scale per 0 e ω ∈ B} ≠ 0 := by
  intro h0
  apply hv
  have h2 : ∀ᵐ z ∂(ν.prod (gauss n)), (z.1, blockMove scale per 0 e.2 z.2) ∉ B :=
    noisyStep_avoid (F := F) (p := fun y => y ∉ B) (measure_eq_zero_iff_ae_notMem.1 h0)
  have h3 := Measure.ae_ae_of_ae_prod h2
  rw [Measure.measure_prod_null hB]
  refine h3.mono fun ξ hξ => ?_
  by_contra hc
  have hsl : MeasurableSet {x : Vec ℝ n | (ξ, x) ∈ B} := measurable_prodMk_left hB
  have hdet : (Matrix.diagonal scale).det ≠ 0 := by
    rw [Matrix.det_diagonal]
    exact Finset.prod_ne_zero_iff.2 fun c _ => hs c
  have h4 : gauss n {z | (fun j => e.2 j + (Matrix.diagonal scale).mulVec z j) ∈ {x : Vec ℝ n | (ξ, x) ∈ B}} ≠ 0 :=
    gauss_affine_pos hdet e.2 hsl hc
  refine h4 (measure_mono_null ?_ (ae_iff.1 hξ))
  intro z hz
  have hz' : (ξ, fun j => e.2 j + (Matrix.diagonal scale).mulVec z j) ∈ B := hz
  have hz'' : (ξ, blockMove scale per 0 e.2 z) ∈ B := by
    rw [blockMove_all hle]
    simpa only [Matrix.mulVec_diagonal] using hz'
  exact not_not.2 hz''

theorem noisyStep_jump {scale : Vec ℝ n} (hs : ∀ c, scale c ≠ 0) {per : Nat} (hle : n ≤ per) (e : Ξ × Vec ℝ n)
    {N : Set (Ξ × Vec ℝ n)} (hN : (ν.prod volume) N = 0) :
    ((ν.prod (gauss n)).prod unifLaw) {ω | noisyStep F scale per 0 e ω ≠ e ∧ noisyStep F scale per 0 e ω ∈ N} = 0 := by
  obtain ⟨t, ht, htm, ht0⟩ := exists_measurable_superset_of_null hN
  have hmp : Measurable fun z : Ξ × Vec ℝ n => (z.1, blockMove scale per 0 e.2 z.2) :=
    measurable_fst.prodMk ((measurable_blockMove scale per 0).comp (measurable_const.prodMk measurable_snd))
  have h1 : (ν.prod (gauss n)) {z | (z.1, blockMove scale per 0 e.2 z.2) ∈ t} = 0 := by
    have hpre : MeasurableSet {z : Ξ × Vec ℝ n | (z.1, blockMove scale per 0 e.2 z.2) ∈ t} := hmp htm
    rw [Measure.measure_prod_null hpre]
    refine ((Measure.measure_prod_null htm).1 ht0).mono fun ξ hξ => ?_
    have := gauss_ac n (affine_null e.2 hs hξ)
    refine measure_mono_null (fun z hz => ?_) this
    have hz' : (ξ, blockMove scale per 0 e.2 z) ∈ t := hz
    rw [blockMove_all hle] at hz'
    exact hz'
  refine measure_mono_null (t := {z | (z.1, blockMove scale per 0 e.2 z.2) ∈ t} ×ˢ Set.univ) ?_ (by rw [Measure.prod_prod, h1, zero_mul])
  rintro ω ⟨hne, hmem⟩
  refine ⟨?_, trivial⟩
  unfold noisyStep at hne hmem
  dsimp only at hne hmem
  split at hne
  · rename_i hacc
    rw [if_pos hacc] at hmem
    exact ht hmem
  · exact absurd rfl hne

/-- The joint density of noise and point, and its averages over functions of the point. -/
theorem noisy_density (hF : Measurable fun e : Ξ × Vec ℝ n => F e.1 e.2)
    (hint : ∫⁻ x, ∫⁻ ξ, ENNReal.ofReal (Real.exp (-F ξ x)) ∂ν ≠ ∞) {h : Vec ℝ n → ℝ} (hh : Measurable h)
    (hhi : Integrable fun x => h x * meanWeight ν F x) :
    ∫⁻ e, ENNReal.ofReal (Real.exp (-F e.1 e.2)) ∂(ν.prod volume) ≠ ∞ ∧
    Integrable (fun e : Ξ × Vec ℝ n => h e.2 * Real.exp (-F e.1 e.2)) (ν.prod volume) ∧
    (∫ e, h e.2 * Real.exp (-F e.1 e.2) ∂(ν.prod volume)) / (∫ e, Real.exp (-F e.1 e.2) ∂(ν.prod volume)) =
      mean (meanWeight ν F) h := by
  have hw : Measurable fun e : Ξ × Vec ℝ n => Real.exp (-F e.1 e.2) := Real.measurable_exp.comp hF.neg
  have hd : Measurable fun e : Ξ × Vec ℝ n => ENNReal.ofReal (Real.exp (-F e.1 e.2)) := ENNReal.measurable_ofReal.comp hw
  have hint' : ∫⁻ e, ENNReal.ofReal (Real.exp (-F e.1 e.2)) ∂(ν.prod volume) ≠ ∞ := by
    rw [lintegral_prod_symm _ hd.aemeasurable]
    exact hint
  have hwi : Integrable (fun e : Ξ × Vec ℝ n => Real.exp (-F e.1 e.2)) (ν.prod volume) := by
    refine ⟨hw.aestronglyMeasurable, ?_⟩
    rw [hasFiniteIntegral_iff_ofReal (ae_of_all _ fun e => (Real.exp_pos _).le)]
    exact lt_top_iff_ne_top.2 hint'
  have hsec : ∀ᵐ x : Vec ℝ n, Integrable (fun ξ => Real.exp (-F ξ x)) ν :=
    ((integrable_prod_iff' hw.aestronglyMeasurable).1 hwi).1
  have hhw : Integrable (fun e : Ξ × Vec ℝ n => h e.2 * Real.exp (-F e.1 e.2)) (ν.prod volume) := by
    have hm : Measurable fun e : Ξ × Vec ℝ n => h e.2 * Real.exp (-F e.1 e.2) := (hh.comp measurable_snd).mul hw
    rw [integrable_prod_iff' hm.aestronglyMeasurable]
    refine ⟨hsec.mono fun x hx => hx.const_mul (h x), ?_⟩
    refine hhi.norm.congr (ae_of_all _ fun x => ?_)
    show ‖h x * meanWeight ν F x‖ = ∫ ξ, ‖h x * Real.exp (-F ξ x)‖ ∂ν
    simp only [norm_mul]
    rw [integral_const_mul]
    congr 1
    unfold meanWeight
    rw [Real.norm_of_nonneg (integral_nonneg fun ξ => (Real.exp_pos _).le)]
    refine integral_congr_ae (ae_of_all _ fun ξ => ?_)
    exact (Real.norm_of_nonneg (Real.exp_pos _).le).symm
  have hlim : (∫ e, h e.2 * Real.exp (-F e.1 e.2) ∂(ν.prod volume)) / (∫ e, Real.exp (-F e.1 e.2) ∂(ν.prod volume)) =
      mean (meanWeight ν F) h := by
    unfold mean
    rw [integral_prod_symm _ hhw, integral_prod_symm _ hwi]
    congr 1
    refine integral_congr_ae (ae_of_all _ fun x => ?_)
    exact integral_const_mul (h x) fun ξ => Real.exp (-F ξ x)
  exact ⟨hint', hhw, hlim⟩

/-- The averages over the points. -/
theorem noisy_average [MeasurableSingletonClass Ξ] (hn : 0 < n) (hF : Measurable fun e : Ξ × Vec ℝ n => F e.1 e.2)
    (hint : ∫⁻ x, ∫⁻ ξ, ENNReal.ofReal (Real.exp (-F ξ x)) ∂ν ≠ ∞) {scale : Vec ℝ n} (hs : ∀ c, scale c ≠ 0) {per : Nat}
    (hle : n ≤ per) {h : Vec ℝ n → ℝ} (hh : Measurable h) (hhi : Integrable fun x => h x * meanWeight ν F x)
    (e : Ξ × Vec ℝ n) :
    ∀ᵐ ω ∂(inputs ((ν.prod (gauss n)).prod unifLaw)),
      Tendsto (fun m : Nat => (∑ k ∈ Finset.range m, h (chain (fun _ => noisyStep F scale per 0) e ω k).2) / m) atTop
        (𝓝 (mean (meanWeight ν F) h)) := by
  obtain ⟨hint', hhw, hlim⟩ := noisy_density hF hint hh hhi
  have hw : Measurable fun e : Ξ × Vec ℝ n => Real.exp (-F e.1 e.2) := Real.measurable_exp.comp hF.neg
  have hbase : (ν.prod (volume : Measure (Vec ℝ n))) ≠ 0 := by
    intro h0
    have h1 := congrArg (fun μ => μ Set.univ) h0
    simp only [← Set.univ_prod_univ, Measure.prod_prod, measure_univ, one_mul, Measure.coe_zero, Pi.zero_apply] at h1
    exact NeZero.ne (volume : Measure (Vec ℝ n)) (Measure.measure_univ_eq_zero.1 h1)
  have hsingle : ∀ e : Ξ × Vec ℝ n, (ν.prod (volume : Measure (Vec ℝ n))) {e} = 0 := by
    intro e
    haveI : Nonempty (Fin n) := ⟨⟨0, hn⟩⟩
    rw [← Set.singleton_prod_singleton, Measure.prod_prod, measure_singleton e.2, mul_zero]
  have h1 := balance_average (measurable_noisyStep hF scale per 0) hw (fun e => Real.exp_pos _) hint' hbase
    (noisyStep_balance (ν := ν) hF scale per 0) (fun B hB hv e => noisyStep_reach hs hle hB hv e)
    (fun e N hN => noisyStep_jump hs hle e hN) hsingle (hh.comp measurable_snd) hhw e
  rw [← hlim]
  exact h1

end Noise

/-! ## The numbers of a run -/

section Zip
variable {A B : Type} [MeasurableSpace A] [MeasurableSpace B]

/-- Sequences of independent pairs are pairs of independent sequences. -/
theorem inputs_unzip (P : Measure A) [IsProbabilityMeasure P] (ν : Measure B) [IsProbabilityMeasure ν] :
    (inputs P).prod (inputs ν) = (inputs (P.prod ν)).map fun ω => ((fun k => (ω k).1), (fun k => (ω k).2)) := by
  classical
  have hm : Measurable fun (ω : Nat → A × B) => ((fun k => (ω k).1), (fun k => (ω k).2)) :=
    (measurable_pi_lambda _ fun k => measurable_fst.comp (measurable_pi_apply k)).prodMk
      (measurable_pi_lambda _ fun k => measurable_snd.comp (measurable_pi_apply k))
  have hspan : ∀ {Y : Type} [MeasurableSpace Y] (μ : Measure (Nat → Y)) [IsProbabilityMeasure μ],
      ∃ S : Measure.FiniteSpanningSetsIn μ (squareCylinders fun _ : Nat => {s : Set Y | MeasurableSet s}), True := by
    intro Y _ μ _
    refine ⟨⟨fun _ => Set.univ, fun _ => ⟨∅, fun _ => Set.univ, fun _ _ => MeasurableSet.univ, by simp⟩,
      fun _ => measure_lt_top _ _, Set.iUnion_const _⟩, trivial⟩
  have hpi : ∀ {Y : Type} [MeasurableSpace Y], IsPiSystem (squareCylinders fun _ : Nat => {s : Set Y | MeasurableSet s}) := by
    intro Y _
    exact isPiSystem_squareCylinders (fun _ => MeasurableSpace.isPiSystem_measurableSet) fun _ => MeasurableSet.univ
  obtain ⟨S1, -⟩ := hspan (inputs P)
  obtain ⟨S2, -⟩ := hspan (inputs ν)
  refine Measure.prod_eq_generateFrom (generateFrom_squareCylinders (α := fun _ : Nat => A))
    (generateFrom_squareCylinders (α := fun _ : Nat => B)) hpi hpi S1 S2 ?_
  rintro _ ⟨s, t, ht, rfl⟩ _ ⟨s', t', ht', rfl⟩
  have ht : ∀ k, MeasurableSet (t k) := fun k => ht k trivial
  have ht' : ∀ k, MeasurableSet (t' k) := fun k => ht' k trivial
  have hms : MeasurableSet ((s : Set Nat).pi t ×ˢ (s' : Set Nat).pi t') :=
    (MeasurableSet.pi s.countable_toSet fun k _ => ht k).prod (MeasurableSet.pi s'.countable_toSet fun k _ => ht' k)
  rw [Measure.map_apply hm hms]
  have hpre : (fun (ω : Nat → A × B) => ((fun k => (ω k).1), (fun k => (ω k).2))) ⁻¹' ((s : Set Nat).pi t ×ˢ (s' : Set Nat).pi t') =
      ((s ∪ s' : Finset Nat) : Set Nat).pi fun k => (if k ∈ s then t k else Set.univ) ×ˢ (if k ∈ s' then t' k else Set.univ) := by
    ext ω
    simp only [Set.mem_preimage, Set.mem_prod, Set.mem_pi, Finset.mem_coe, Finset.mem_union]
    constructor
    · rintro ⟨h1, h2⟩ k -
      constructor
      · split_ifs with hk
        · exact h1 k hk
        · trivial
      · split_ifs with hk
        · exact h2 k hk
        · trivial
    · intro h
      constructor
      · intro k hk
        have := (h k (Or.inl hk)).1
        rwa [if_pos hk] at this
      · intro k hk
        have := (h k (Or.inr hk)).2
        rwa [if_pos hk] at this
  rw [hpre]
  unfold inputs
  rw [Measure.infinitePi_pi, Measure.infinitePi_pi _ fun k _ => ht k, Measure.infinitePi_pi _ fun k _ => ht' k]
  · simp only [Measure.prod_prod]
    rw [Finset.prod_mul_distrib]
    congr 1
    · rw [← Finset.prod_subset (Finset.subset_union_left (s₁ := s) (s₂ := s')) fun k _ hk => by rw [if_neg hk, measure_univ]]
      exact Finset.prod_congr rfl fun k hk => by rw [if_pos hk]
    · rw [← Finset.prod_subset (Finset.subset_union_right (s₁ := s) (s₂ := s')) fun k _ hk => by rw [if_neg hk, measure_univ]]
      exact Finset.prod_congr rfl fun k hk => by rw [if_pos hk]
  · intro k _
    refine MeasurableSet.prod ?_ ?_
    · split_ifs
      exacts [ht k, MeasurableSet.univ]
    · split_ifs
      exacts [ht' k, MeasurableSet.univ]

theorem zip_preserving (P : Measure A) [IsProbabilityMeasure P] (ν : Measure B) [IsProbabilityMeasure ν] :
    MeasurePreserving (fun (z : (Nat → A) × (Nat → B)) (k : Nat) => (z.1 k, z.2 k)) ((inputs P).prod (inputs ν)) (inputs (P.prod ν)) := by
  have hm : Measurable fun (ω : Nat → A × B) => ((fun k => (ω k).1), (fun k => (ω k).2)) :=
    (measurable_pi_lambda _ fun k => measurable_fst.comp (measurable_pi_apply k)).prodMk
      (measurable_pi_lambda _ fun k => measurable_snd.comp (measurable_pi_apply k))
  have hz : Measurable fun (z : (Nat → A) × (Nat → B)) (k : Nat) => (z.1 k, z.2 k) :=
    measurable_pi_lambda _ fun k => ((measurable_pi_apply k).comp measurable_fst).prodMk ((measurable_pi_apply k).comp measurable_snd)
  refine ⟨hz, ?_⟩
  rw [inputs_unzip, Measure.map_map hz hm]
  exact Measure.map_id

/-- What holds almost surely for the first noise and the inputs of a chain on pairs, holds for the numbers of the generator together
with the noise of all requests. -/
theorem noisy_inputs {n : Nat} (ν : Measure B) [IsProbabilityMeasure ν] {p : B × (Nat → (B × Vec ℝ n) × ℝ) → Prop}
    (h : ∀ᵐ z ∂(ν.prod (inputs ((ν.prod (gauss n)).prod unifLaw))), p z) :
    ∀ᵐ z ∂((inputs ((gauss n).prod unifLaw)).prod (inputs ν)), p (z.2 0, fun k => ((z.2 (k + 1), (z.1 k).1), (z.1 k).2)) := by
  have e1 : MeasurePreserving (fun ξ : Nat → B => (ξ 0, fun k => ξ (k + 1))) (inputs ν) (ν.prod (inputs ν)) := by
    have hm : Measurable fun ξ : Nat → B => (ξ 0, fun k => ξ (k + 1)) :=
      (measurable_pi_apply 0).prodMk (measurable_pi_lambda _ fun k => measurable_pi_apply (k + 1))
    refine ⟨hm, ?_⟩
    rw [← inputs_cons ν, Measure.map_map hm measurable_cons, inputs_cons ν]
    exact Measure.map_id
  have e2 := (Measure.measurePreserving_swap (μ := inputs ((gauss n).prod unifLaw)) (ν := ν.prod (inputs ν)))
  have e3 := measurePreserving_prodAssoc ν (inputs ν) (inputs ((gauss n).prod unifLaw))
  have e4 := (MeasurePreserving.id ν).prod (zip_preserving ν ((gauss n).prod unifLaw))
  have e5 : MeasurePreserving (fun (ω : Nat → B × (Vec ℝ n × ℝ)) k => (((ω k).1, (ω k).2.1), (ω k).2.2))
      (inputs (ν.prod ((gauss n).prod unifLaw))) (inputs ((ν.prod (gauss n)).prod unifLaw)) := by
    have ha := (measurePreserving_prodAssoc ν (gauss n) unifLaw).symm
    have hm : Measurable fun r : B × (Vec ℝ n × ℝ) => ((r.1, r.2.1), r.2.2) := ha.measurable
    refine ⟨measurable_pi_lambda _ fun k => hm.comp (measurable_pi_apply k), ?_⟩
    have := Measure.infinitePi_map_pi (fun _ : Nat => ν.prod ((gauss n).prod unifLaw)) fun _ => hm
    unfold inputs
    rw [this]
    congr 1
    funext _
    exact ha.map_eq
  have e := ((MeasurePreserving.id ν).prod e5).comp (e4.comp (e3.comp (e2.comp
    ((MeasurePreserving.id (inputs ((gauss n).prod unifLaw))).prod e1))))
  exact e.quasiMeasurePreserving.ae h

end Zip

end Stochopy
