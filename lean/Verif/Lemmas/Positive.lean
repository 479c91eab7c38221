import Verif.Lemmas.RecurWalk
import Verif.Lemmas.Mixing
import Verif.Lemmas.Average
import Mathlib.MeasureTheory.Integral.Prod
import Mathlib.Probability.Distributions.Gaussian.Real

/-! # The random walk with normal steps is a positive operator -/

set_option linter.unusedSectionVars false

namespace Stochopy
open MeasureTheory ProbabilityTheory Spec Sampling Filter
open scoped ENNReal

/-- The minimum is a positive kernel. -/
theorem min_kernel_nonneg {Z : Type} [MeasurableSpace Z] {γ : Measure Z} [IsProbabilityMeasure γ] {a b : Z → ℝ} (ha : Measurable a)
    (hb : Measurable b) (ha0 : ∀ z, 0 ≤ a z) : 0 ≤ ∫ e : Z × Z, min (a e.1) (a e.2) * (b e.1 * b e.2) ∂(γ.prod γ) := by
  by_cases hi : Integrable (fun e : Z × Z => min (a e.1) (a e.2) * (b e.1 * b e.2)) (γ.prod γ)
  swap
  · rw [integral_undef hi]
  set lam : Measure ℝ := volume.restrict (Set.Ioi 0) with hlam
  set G : (Z × Z) × ℝ → ℝ := fun p => {q : ℝ × ℝ | q.1 < q.2}.indicator 1 (p.2, a p.1.1) * b p.1.1 *
    ({q : ℝ × ℝ | q.1 < q.2}.indicator 1 (p.2, a p.1.2) * b p.1.2) with hG
  have hset : MeasurableSet {q : ℝ × ℝ | q.1 < q.2} := measurableSet_lt measurable_fst measurable_snd
  have hind : Measurable fun q : ℝ × ℝ => {q : ℝ × ℝ | q.1 < q.2}.indicator (1 : ℝ × ℝ → ℝ) q := measurable_const.indicator hset
  have hGm : Measurable G :=
    ((hind.comp (measurable_snd.prodMk (ha.comp (measurable_fst.comp measurable_fst)))).mul
      (hb.comp (measurable_fst.comp measurable_fst))).mul
    ((hind.comp (measurable_snd.prodMk (ha.comp (measurable_snd.comp measurable_fst)))).mul
      (hb.comp (measurable_snd.comp measurable_fst)))
  have hGe : ∀ (e : Z × Z) (t : ℝ), G (e, t) = (Set.Iio (min (a e.1) (a e.2))).indicator (fun _ => b e.1 * b e.2) t := by
    intro e t
    have hp : ∀ z, {q : ℝ × ℝ | q.1 < q.2}.indicator (1 : ℝ × ℝ → ℝ) (t, a z) = if t < a z then 1 else 0 := fun z => by
      by_cases h : t < a z
      · rw [if_pos h, Set.indicator_of_mem (show (t, a z) ∈ {q : ℝ × ℝ | q.1 < q.2} from h)]
        rfl
      · rw [if_neg h, Set.indicator_of_notMem (show (t, a z) ∉ {q : ℝ × ℝ | q.1 < q.2} from h)]
    show _ * b e.1 * (_ * b e.2) = _
    rw [hp, hp, Set.indicator_apply]
    simp only [Set.mem_Iio, lt_min_iff]
    by_cases h1 : t < a e.1 <;> by_cases h2 : t < a e.2 <;> simp [h1, h2]
  have hlen : ∀ s : ℝ, 0 ≤ s → lam.real (Set.Iio s) = s := by
    intro s hs
    rw [hlam, measureReal_def, Measure.restrict_apply measurableSet_Iio, Set.inter_comm, Set.Ioi_inter_Iio, Real.volume_Ioo, sub_zero,
      ENNReal.toReal_ofReal hs]
  have hfin : ∀ s : ℝ, lam (Set.Iio s) ≠ ∞ := by
    intro s
    rw [hlam, Measure.restrict_apply measurableSet_Iio, Set.inter_comm, Set.Ioi_inter_Iio, Real.volume_Ioo]
    exact ENNReal.ofReal_ne_top
  have hmin0 : ∀ e : Z × Z, 0 ≤ min (a e.1) (a e.2) := fun e => le_min (ha0 _) (ha0 _)
  have hsec : ∀ e : Z × Z, ∫ t, G (e, t) ∂lam = min (a e.1) (a e.2) * (b e.1 * b e.2) := by
    intro e
    simp only [hGe]
    rw [integral_indicator measurableSet_Iio, setIntegral_const, hlen _ (hmin0 e), smul_eq_mul]
  have hGi : Integrable G ((γ.prod γ).prod lam) := by
    rw [integrable_prod_iff hGm.aestronglyMeasurable]
    constructor
    · refine ae_of_all _ fun e => ?_
      simp only [hGe]
      rw [integrable_indicator_iff measurableSet_Iio]
      exact integrableOn_const (hfin _)
    · refine hi.norm.congr (ae_of_all _ fun e => ?_)
      show ‖min (a e.1) (a e.2) * (b e.1 * b e.2)‖ = ∫ t, ‖G (e, t)‖ ∂lam
      simp only [hGe, norm_indicator_eq_indicator_norm]
      rw [integral_indicator measurableSet_Iio, setIntegral_const, hlen _ (hmin0 e), smul_eq_mul, norm_mul,
        Real.norm_of_nonneg (hmin0 e)]
  have h1 : ∫ e : Z × Z, min (a e.1) (a e.2) * (b e.1 * b e.2) ∂(γ.prod γ) = ∫ t, ∫ e, G (e, t) ∂(γ.prod γ) ∂lam := by
    rw [← integral_prod_symm _ hGi, integral_prod _ hGi]
    exact integral_congr_ae (ae_of_all _ fun e => (hsec e).symm)
  rw [h1]
  refine integral_nonneg fun t => ?_
  have h2 := integral_prod_mul (μ := γ) (ν := γ) (fun z => {q : ℝ × ℝ | q.1 < q.2}.indicator (1 : ℝ × ℝ → ℝ) (t, a z) * b z)
    (fun z => {q : ℝ × ℝ | q.1 < q.2}.indicator (1 : ℝ × ℝ → ℝ) (t, a z) * b z)
  show 0 ≤ ∫ e, G (e, t) ∂(γ.prod γ)
  exact h2.symm ▸ mul_self_nonneg _

/-- The difference of two normal vectors, divided by `√2`. -/
theorem gauss_difference (n : Nat) :
    MeasurePreserving (fun e : Vec ℝ n × Vec ℝ n => (√2)⁻¹ • (e.2 - e.1)) ((gauss n).prod (gauss n)) (gauss n) := by
  have h1 : MeasurePreserving (fun e : ℝ × ℝ => (√2)⁻¹ * (e.2 - e.1)) ((gaussianReal 0 1).prod (gaussianReal 0 1)) (gaussianReal 0 1) := by
    refine ⟨(measurable_snd.sub measurable_fst).const_mul _, ?_⟩
    have hadd : Measurable fun x : ℝ × ℝ => x.1 + x.2 := measurable_fst.add measurable_snd
    have hneg : Measurable (Prod.map (fun x : ℝ => -x) (id : ℝ → ℝ)) := measurable_neg.prodMap measurable_id
    have hsub : Measurable fun e : ℝ × ℝ => e.2 - e.1 := measurable_snd.sub measurable_fst
    have hmul : Measurable fun x : ℝ => (√2)⁻¹ * x := measurable_const_mul _
    have h2 : ((gaussianReal 0 1).prod (gaussianReal 0 1)).map (fun e : ℝ × ℝ => e.2 - e.1) = gaussianReal 0 2 := by
      have h3 := gaussianReal_conv_gaussianReal (m₁ := 0) (m₂ := 0) (v₁ := 1) (v₂ := 1)
      rw [Measure.conv] at h3
      have h4 : (gaussianReal 0 1).prod (gaussianReal 0 1) =
          ((gaussianReal 0 1).prod (gaussianReal 0 1)).map (Prod.map (fun x : ℝ => -x) id) := by
        rw [← Measure.map_prod_map _ _ measurable_neg measurable_id, gaussianReal_map_neg, neg_zero, Measure.map_id]
      rw [h4, Measure.map_map hadd hneg] at h3
      have h5 : (fun e : ℝ × ℝ => e.2 - e.1) = (fun x : ℝ × ℝ => x.1 + x.2) ∘ Prod.map (fun x : ℝ => -x) id := by
        funext e
        show e.2 - e.1 = -e.1 + e.2
        ring
      rw [h5, h3, add_zero]
      norm_num
    have h6 := gaussianReal_map_const_mul (μ := 0) (v := 2) (√2)⁻¹
    rw [← h2, Measure.map_map hmul hsub, mul_zero] at h6
    refine Eq.trans h6 ?_
    congr 1
    ext
    show ((√2)⁻¹) ^ 2 * 2 = (1 : ℝ)
    rw [inv_pow, Real.sq_sqrt zero_le_two]
    norm_num
  have h2 := measurePreserving_arrowProdEquivProdArrow ℝ ℝ (Fin n) (fun _ => gaussianReal 0 1) fun _ => gaussianReal 0 1
  have h3 : MeasurePreserving (fun (a : Fin n → ℝ × ℝ) (i : Fin n) => (√2)⁻¹ * ((a i).2 - (a i).1))
      (Measure.pi fun _ => (gaussianReal 0 1).prod (gaussianReal 0 1)) (Measure.pi fun _ => gaussianReal 0 1) :=
    measurePreserving_pi _ _ fun _ => h1
  exact h3.comp h2.symm

section Walk
variable {n : Nat} {f : Vec ℝ n → ℝ}

theorem shift_add (scale : Vec ℝ n) (per b : Nat) (y z : Vec ℝ n) :
    shift scale per b (y + z) = shift scale per b y + shift scale per b z := by
  funext c
  show (if _ then (y c + z c) * _ else _) = (if _ then _ else _) + (if _ then _ else _)
  split_ifs
  · ring
  · rw [add_zero]

/-- A point and its proposal, seen from between them. -/
theorem middle_preserving (scale : Vec ℝ n) (per b : Nat) :
    MeasurePreserving (fun p : Vec ℝ n × (Vec ℝ n × Vec ℝ n) =>
      (p.1 + shift scale per b ((√2)⁻¹ • p.2.1), (√2)⁻¹ • (p.2.2 - p.2.1)))
      ((volume : Measure (Vec ℝ n)).prod ((gauss n).prod (gauss n))) (volume.prod (gauss n)) := by
  have h0 : Measurable fun a : (Vec ℝ n × Vec ℝ n) × Vec ℝ n => (√2)⁻¹ • a.1.1 := (measurable_fst.comp measurable_fst).const_smul (√2)⁻¹
  have h1 : MeasurePreserving (fun p : (Vec ℝ n × Vec ℝ n) × Vec ℝ n => ((√2)⁻¹ • (p.1.2 - p.1.1), p.2 + shift scale per b ((√2)⁻¹ • p.1.1)))
      (((gauss n).prod (gauss n)).prod volume) ((gauss n).prod volume) :=
    (gauss_difference n).skew_product (g := fun z x => x + shift scale per b ((√2)⁻¹ • z.1))
      (measurable_snd.add ((measurable_shift scale per b).comp h0))
      (Eventually.of_forall fun z => map_add_right_eq_self _ _)
  exact (Measure.measurePreserving_swap (μ := gauss n) (ν := (volume : Measure (Vec ℝ n)))).comp
    (h1.comp (Measure.measurePreserving_swap (μ := (volume : Measure (Vec ℝ n))) (ν := (gauss n).prod (gauss n))))

/-- The expectation of `h` after one iteration. -/
theorem expect_walk (hf : Measurable f) (scale : Vec ℝ n) (per b : Nat) {h : Vec ℝ n → ℝ} (hh : Measurable h) {M : ℝ}
    (hM : ∀ x, |h x| ≤ M) (x : Vec ℝ n) :
    Real.exp (-f x) * expect ((gauss n).prod unifLaw) (walkStep f scale per b) h x =
      ∫ z, (min (Real.exp (-f x)) (Real.exp (-f (x + shift scale per b z))) * h (x + shift scale per b z) +
        (Real.exp (-f x) - min (Real.exp (-f x)) (Real.exp (-f (x + shift scale per b z)))) * h x) ∂(gauss n) := by
  have hmx : Measurable fun ω => walkStep f scale per b x ω := (measurable_walkStep hf scale per b).comp measurable_prodMk_left
  have hi : Integrable (fun ω => h (walkStep f scale per b x ω)) ((gauss n).prod unifLaw) := bounded_integrable (hh.comp hmx) fun _ => hM _
  unfold expect
  rw [integral_prod _ hi, ← integral_const_mul]
  refine integral_congr_ae (ae_of_all _ fun z => ?_)
  set y := x + shift scale per b z with hy
  have hacc : unifLaw.real {u | metropolis (Val.fin (f x - f y)) u = true} = min 1 (Real.exp (f x - f y)) := by
    rw [measureReal_def, unifLaw_metropolis, ENNReal.toReal_ofReal (le_min zero_le_one (Real.exp_pos _).le)]
  have hae : (fun u => h (walkStep f scale per b x (z, u))) =ᵐ[unifLaw] fun u => h x + {u : ℝ | u < Real.exp (f x - f y)}.indicator
      (fun _ => h y - h x) u := by
    unfold unifLaw
    refine (ae_restrict_mem measurableSet_Ico).mono fun u hu => ?_
    show h (if metropolis (Val.fin (f x) - Val.fin (f (blockMove scale per b x z))) u = true then blockMove scale per b x z else x) =
      h x + {u : ℝ | u < Real.exp (f x - f y)}.indicator (fun _ => h y - h x) u
    rw [blockMove_eq, ← hy, Val.fin_sub]
    by_cases hc : u < Real.exp (f x - f y)
    · rw [if_pos ((metropolis_exp hu.1 hu.2).2 hc), Set.indicator_of_mem (show u ∈ {u : ℝ | u < Real.exp (f x - f y)} from hc)]
      ring
    · rw [if_neg fun h => hc ((metropolis_exp hu.1 hu.2).1 h),
        Set.indicator_of_notMem (show u ∉ {u : ℝ | u < Real.exp (f x - f y)} from hc), add_zero]
  have hs : MeasurableSet {u : ℝ | u < Real.exp (f x - f y)} := measurableSet_Iio
  have hp : unifLaw.real {u : ℝ | u < Real.exp (f x - f y)} = min 1 (Real.exp (f x - f y)) := by
    rw [← hacc]
    refine measureReal_congr ?_
    unfold unifLaw
    rw [eventuallyEq_set]
    exact (ae_restrict_mem measurableSet_Ico).mono fun u hu => (metropolis_exp hu.1 hu.2).symm
  show Real.exp (-f x) * ∫ u, h (walkStep f scale per b x (z, u)) ∂unifLaw =
    min (Real.exp (-f x)) (Real.exp (-f y)) * h y + (Real.exp (-f x) - min (Real.exp (-f x)) (Real.exp (-f y))) * h x
  rw [integral_congr_ae hae, integral_add (integrable_const _) ((integrable_const _).indicator hs), integral_const, probReal_univ,
    one_smul, integral_indicator hs, setIntegral_const, hp, smul_eq_mul]
  have he : Real.exp (-f x) * min 1 (Real.exp (f x - f y)) = min (Real.exp (-f x)) (Real.exp (-f y)) := by
    rw [mul_min_of_nonneg _ _ (Real.exp_pos _).le, mul_one, ← Real.exp_add]
    congr 2
    ring
  rw [← he]
  ring

/-- One iteration of the random walk is a positive operator. -/
theorem walk_positive (hf : Measurable f) (hint : ∫⁻ x, ENNReal.ofReal (Real.exp (-f x)) ≠ ∞) (scale : Vec ℝ n) (per b : Nat)
    {h : Vec ℝ n → ℝ} (hh : Measurable h) {M : ℝ} (hM : ∀ x, |h x| ≤ M) :
    0 ≤ ∫ x, h x * expect ((gauss n).prod unifLaw) (walkStep f scale per b) h x * Real.exp (-f x) := by
  have hw : Measurable fun x => Real.exp (-f x) := Real.measurable_exp.comp hf.neg
  have hwi : Integrable fun x => Real.exp (-f x) := by
    refine ⟨hw.aestronglyMeasurable, ?_⟩
    rw [hasFiniteIntegral_iff_ofReal (ae_of_all _ fun y => (Real.exp_pos _).le)]
    exact lt_top_iff_ne_top.2 hint
  have hM0 : 0 ≤ M := (abs_nonneg _).trans (hM 0)
  set S := shift scale per b with hS
  have hSm : Measurable S := measurable_shift scale per b
  set F : Vec ℝ n × Vec ℝ n → ℝ := fun p => min (Real.exp (-f p.1)) (Real.exp (-f (p.1 + S p.2))) * (h p.1 * h (p.1 + S p.2)) with hF
  set G : Vec ℝ n × Vec ℝ n → ℝ := fun p => (Real.exp (-f p.1) - min (Real.exp (-f p.1)) (Real.exp (-f (p.1 + S p.2)))) * (h p.1 * h p.1)
    with hG
  have hmove : Measurable fun p : Vec ℝ n × Vec ℝ n => p.1 + S p.2 := measurable_fst.add (hSm.comp measurable_snd)
  have hminm : Measurable fun p : Vec ℝ n × Vec ℝ n => min (Real.exp (-f p.1)) (Real.exp (-f (p.1 + S p.2))) :=
    (hw.comp measurable_fst).min (hw.comp hmove)
  have hFm : Measurable F := hminm.mul ((hh.comp measurable_fst).mul (hh.comp hmove))
  have hGm : Measurable G := ((hw.comp measurable_fst).sub hminm).mul ((hh.comp measurable_fst).mul (hh.comp measurable_fst))
  have hdom : Integrable (fun p : Vec ℝ n × Vec ℝ n => Real.exp (-f p.1) * (M * M)) (volume.prod (gauss n)) :=
    (hwi.comp_fst (gauss n)).mul_const _
  have hb2 : ∀ x y, |h x * h y| ≤ M * M := fun x y => by
    rw [abs_mul]
    exact mul_le_mul (hM x) (hM y) (abs_nonneg _) hM0
  have hFi : Integrable F (volume.prod (gauss n)) := by
    refine hdom.mono hFm.aestronglyMeasurable (ae_of_all _ fun p => ?_)
    rw [Real.norm_eq_abs, Real.norm_eq_abs, abs_of_nonneg (mul_nonneg (Real.exp_pos (-f p.1)).le (mul_nonneg hM0 hM0)), hF]
    show |_ * (h p.1 * h (p.1 + S p.2))| ≤ _
    rw [abs_mul, abs_of_pos (lt_min (Real.exp_pos _) (Real.exp_pos _))]
    exact mul_le_mul (min_le_left _ _) (hb2 _ _) (abs_nonneg _) (Real.exp_pos _).le
  have hGi : Integrable G (volume.prod (gauss n)) := by
    refine hdom.mono hGm.aestronglyMeasurable (ae_of_all _ fun p => ?_)
    have h0 : 0 ≤ Real.exp (-f p.1) - min (Real.exp (-f p.1)) (Real.exp (-f (p.1 + S p.2))) := sub_nonneg.2 (min_le_left _ _)
    rw [Real.norm_eq_abs, Real.norm_eq_abs, abs_of_nonneg (mul_nonneg (Real.exp_pos (-f p.1)).le (mul_nonneg hM0 hM0)), hG]
    show |_ * (h p.1 * h p.1)| ≤ _
    rw [abs_mul, abs_of_nonneg h0]
    refine mul_le_mul (sub_le_self _ (lt_min (Real.exp_pos _) (Real.exp_pos _)).le) (hb2 _ _) (abs_nonneg _) (Real.exp_pos _).le
  have h1 : ∫ x, h x * expect ((gauss n).prod unifLaw) (walkStep f scale per b) h x * Real.exp (-f x) =
      ∫ p, (F p + G p) ∂(volume.prod (gauss n)) := by
    have hFG : Integrable (fun p => F p + G p) (volume.prod (gauss n)) := hFi.add hGi
    rw [integral_prod _ hFG]
    refine integral_congr_ae (ae_of_all _ fun x => ?_)
    show h x * _ * Real.exp (-f x) = ∫ z, (F (x, z) + G (x, z)) ∂(gauss n)
    rw [mul_assoc, mul_comm (expect _ _ _ _), expect_walk hf scale per b hh hM x, ← integral_const_mul]
    refine integral_congr_ae (ae_of_all _ fun z => ?_)
    simp only [hF, hG, ← hS]
    ring
  rw [h1, integral_add hFi hGi]
  refine add_nonneg ?_ (integral_nonneg fun p => mul_nonneg (sub_nonneg.2 (min_le_left _ _)) (mul_self_nonneg _))
  have hmp := middle_preserving scale per b
  have h2 := integral_map hmp.measurable.aemeasurable (f := F) (by rw [hmp.map_eq]; exact hFm.aestronglyMeasurable)
  rw [hmp.map_eq] at h2
  have h2i : Integrable (fun p : Vec ℝ n × (Vec ℝ n × Vec ℝ n) => F (p.1 + shift scale per b ((√2)⁻¹ • p.2.1), (√2)⁻¹ • (p.2.2 - p.2.1)))
    (volume.prod ((gauss n).prod (gauss n))) := hmp.integrable_comp_of_integrable hFi
  rw [h2, integral_prod _ h2i]
  refine integral_nonneg fun u => ?_
  have hsm : Measurable fun z : Vec ℝ n => (√2)⁻¹ • z := measurable_const_smul _
  have h3 := min_kernel_nonneg (γ := gauss n) (a := fun z => Real.exp (-f (u + S ((√2)⁻¹ • z)))) (b := fun z => h (u + S ((√2)⁻¹ • z)))
    (hw.comp (measurable_const.add (hSm.comp hsm))) (hh.comp (measurable_const.add (hSm.comp hsm)))
    fun z => (Real.exp_pos _).le
  refine le_of_le_of_eq h3 (integral_congr_ae (ae_of_all _ fun e => ?_))
  have h4 : u + S ((√2)⁻¹ • e.1) + S ((√2)⁻¹ • (e.2 - e.1)) = u + S ((√2)⁻¹ • e.2) := by
    rw [add_assoc, hS, ← shift_add, ← smul_add, add_sub_cancel]
  simp only [hF, ← hS, h4]

theorem expect_blockStep (hf : Measurable f) (scale : Vec ℝ n) {per : Nat} (hper : 0 < per) (b : Nat) {h : Vec ℝ n → ℝ}
    (hh : Measurable h) :
    expect ((gauss per).prod unifLaw) (blockStep f scale hper b) h = expect ((gauss n).prod unifLaw) (walkStep f scale per b) h := by
  funext x
  have m1 : Measurable fun ω => blockStep f scale hper b x ω := (measurable_blockStep hf scale hper b).comp measurable_prodMk_left
  have m2 : Measurable fun ω => walkStep f scale per b x ω := (measurable_walkStep hf scale per b).comp measurable_prodMk_left
  have hmap : ((gauss per).prod unifLaw).map (fun ω => blockStep f scale hper b x ω) =
      ((gauss n).prod unifLaw).map fun ω => walkStep f scale per b x ω := by
    refine Measure.ext fun A hA => ?_
    rw [Measure.map_apply m1 hA, Measure.map_apply m2 hA]
    exact blockStep_law hf scale hper b x hA
  unfold expect
  rw [← integral_map m1.aemeasurable hh.aestronglyMeasurable, ← integral_map m2.aemeasurable hh.aestronglyMeasurable, hmap]

/-- The same for one iteration of 'mcmc', under the probability measure proportional to `exp (-f)`. -/
theorem block_positive (hf : Measurable f) (hint : ∫⁻ x, ENNReal.ofReal (Real.exp (-f x)) ≠ ∞) (scale : Vec ℝ n) {per : Nat}
    (hper : 0 < per) (b : Nat) {h : Vec ℝ n → ℝ} (hh : Measurable h) {M : ℝ} (hM : ∀ x, |h x| ≤ M) :
    0 ≤ ∫ x, h x * expect ((gauss per).prod unifLaw) (blockStep f scale hper b) h x ∂(normalized fun x => Real.exp (-f x)) := by
  have hw : Measurable fun x => Real.exp (-f x) := Real.measurable_exp.comp hf.neg
  rw [normalized_integral hw fun x => Real.exp_pos _, expect_blockStep hf scale hper b hh, mean]
  exact div_nonneg (walk_positive hf hint scale per b hh hM) (integral_nonneg fun x => (Real.exp_pos _).le)

end Walk

end Stochopy
