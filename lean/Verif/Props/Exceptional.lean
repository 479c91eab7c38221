import Verif.Lemmas.Exceptional
import Verif.Props.Mixing

/-!
# C96, C101, C102: 'mcmc' with blocks from an exceptional start

With `perc=1` the samples of 'mcmc' find every region from every start.  With smaller blocks this holds from almost every start, and
not from every start: for the smooth objective `|z|² exp |y|²` of eight variables, with the default step size and two blocks, a chain
that starts in the origin never leaves the plane `z = 0` with probability at least 31/32.
-/

set_option linter.unusedSectionVars false

namespace Stochopy
open MeasureTheory hiding average
open Spec Sampling ProbabilityTheory Filter Topology Concrete
open scoped ENNReal

/-- The call: bounds `[-10, 10]`, the default `stepsize=0.1`, `perc=0.5`, `x0` the origin. -/
noncomputable def trapArgs (m : Nat) : MCMC.Args ℝ where
  bounds := { shape := [8, 2], get := fun l => if l.getD 1 0 = 0 then -10 else 10 }
  fn := some fun v : Vec (Val ℝ) 8 => .fin (trap fun j => match v j with | .fin t => t | _ => 0)
  x0 := some (asArray (0 : Vec ℝ 8))
  maxiter := m
  stepsize := .scalar false (1 / 10)
  seed := none
  constraints := none
  returnAll := true
  callback := none
  perc := 1 / 2

/-- The points off the plane. -/
def OffPlane : Set (Vec ℝ 8) := {x | x 4 ≠ 0}

theorem measurableSet_offPlane : MeasurableSet OffPlane := (measurableSet_eq_fun (measurable_pi_apply 4) measurable_const).compl

/-- Almost every point is off the plane. -/
theorem offPlane_ae : ∀ᵐ x : Vec ℝ 8, x ∈ OffPlane := by
  refine measure_mono_null (t := {x : Vec ℝ 8 | x 4 = 0}) (fun x hx => ?_) ?_
  · by_contra h
    exact hx h
  · rw [volume_pi]
    exact Measure.pi_hyperplane _ 4 0

theorem mean_offPlane : mean (fun x => Real.exp (-trap x)) (OffPlane.indicator 1) = 1 := by
  unfold mean
  have h1 : ∫ x, OffPlane.indicator (1 : Vec ℝ 8 → ℝ) x * Real.exp (-trap x) = ∫ x, Real.exp (-trap x) := by
    refine integral_congr_ae (offPlane_ae.mono fun x hx => ?_)
    dsimp only
    rw [Set.indicator_of_mem hx]
    exact one_mul _
  rw [h1]
  refine div_self (ne_of_gt ?_)
  have hi : Integrable fun x => Real.exp (-trap x) := by
    refine ⟨(Real.measurable_exp.comp measurable_trap.neg).aestronglyMeasurable, ?_⟩
    rw [hasFiniteIntegral_iff_ofReal (Eventually.of_forall fun x => (Real.exp_pos _).le)]
    exact lt_top_iff_ne_top.2 trap_integrable
  exact integral_exp_pos hi

section Runs
variable {σ : Type} {R : Rng σ ℝ}

/-- The calls return. -/
theorem trap_returns (hR : R.Ok) (g : σ) {m : Nat} (hm : 1 ≤ m) : ∃ o, (MCMC.sample R m (trapArgs m) g).1 = .ok o := by
  refine (C62_mcmc hR (a := trapArgs m) (Int.toNat_natCast m).le).2
    ⟨⟨⟨rfl, rfl, ?_, rfl, ?_, ?_⟩, ?_⟩, Or.inl ⟨(by decide : 0 < 8), Or.inl ?_⟩⟩
  · rintro y ⟨⟩
    exact Or.inl rfl
  · rintro ⟨⟩
  · show (1 : Int) ≤ m
    omega
  · show (0 : ℝ) ≤ 1 / 2 ∧ (1 / 2 : ℝ) ≤ 1
    norm_num
  · show blockSize (1 / 2 : ℝ) 8 ∣ 8
    unfold blockSize
    norm_num

theorem trap_block (m : Nat) : blockSize (trapArgs m).perc (trapArgs m).ndim = 4 := by
  show blockSize (1 / 2 : ℝ) 8 = 4
  unfold blockSize
  norm_num

theorem trap_scale (m : Nat) : scaleOf (trapArgs m).toArgs = fun _ => 1 := by
  funext c
  show (1 / 10 : ℝ) * (((if 1 = 0 then -10 else 10 : ℝ) - (if 0 = 0 then -10 else 10 : ℝ)) / 2) = 1
  norm_num

/-- Unless a move of the second block is accepted, all samples are on the plane. -/
theorem trap_run (hR : R.Ok) {g : σ} {m fuel : Nat} {o : Sampling.Output σ ℝ 8}
    (h : (MCMC.sample R fuel (trapArgs m) g).1 = .ok o) (hE : ∀ j, numbers R 4 g ∉ Escape j) :
    ∃ qs : List (Vec ℝ 8), o.xall = some (qs.map point) ∧ qs.length = m ∧ ∀ q ∈ qs, q ∉ OffPlane := by
  obtain ⟨qs, h1, h2, h3⟩ : ∃ qs : List (Vec ℝ 8), o.xall = some (qs.map point) ∧ (qs.length : Int) = m ∧
      ∀ k : Nat, (k : Int) < m → qs[k]? = some (chain (mcmcNext trap (scaleOf (trapArgs m).toArgs)
        (blockSize_pos (trapArgs m).perc (trapArgs m).ndim)) (0 : Vec ℝ 8)
        (numbers R (blockSize (trapArgs m).perc (trapArgs m).ndim) (genStart R (trapArgs m).toArgs g)) k) := mcmc_samples hR (a := trapArgs m) (φ := trap) rfl (fun x => rfl) (by rintro ⟨⟩) rfl h
    (q := (0 : Vec ℝ 8)) (by
      intro y hy
      rw [hy rfl]
      funext j
      show Val.fin (if h : j.val < 8 then (0 : Vec ℝ 8) ⟨j.val, h⟩ else 0) = Val.fin 0
      rw [dif_pos (show j.val < 8 from j.isLt)]
      rfl)
  refine ⟨qs, h1, by omega, fun q hq => ?_⟩
  obtain ⟨k, hk, rfl⟩ := List.getElem_of_mem hq
  have h4 := h3 k (by omega)
  rw [List.getElem?_eq_getElem hk] at h4
  have h5 := Option.some.inj h4
  have hgen : genStart R (trapArgs m).toArgs g = g := rfl
  have key : ∀ (per : Nat) (hper : 0 < per) (he : per = 4) (s : Vec ℝ 8) (hs : s = fun _ => 1),
      chain (mcmcNext trap s hper) 0 (numbers R per g) k ∉ OffPlane := by
    rintro per hper rfl s rfl hoff
    rw [trapped (fun k => ⟨hR.rand_nonneg _, hR.rand_lt_one _⟩) hE k] at hoff
    exact hoff (onPlane_high _ 0)
  have h6 := key _ (blockSize_pos (trapArgs m).perc (trapArgs m).ndim) (trap_block m) _ (trap_scale m)
  rw [hgen] at h5
  rw [h5]
  exact h6

/-- The probability that the second block is never accepted. -/
theorem trap_prob [MeasurableSpace σ] {Q : Measure σ} (hQ : Ideal R Q) : Q {g | ¬ ∀ j, numbers R 4 g ∉ Escape j} ≤ ENNReal.ofReal (1 / 32) ∧
    MeasurableSet {g | ¬ ∀ j, numbers R 4 g ∉ Escape j} ∧ IsProbabilityMeasure Q := by
  obtain ⟨hmeas, hlaw⟩ := hQ.numbers 4
  have hU : MeasurableSet (⋃ j, Escape j) := MeasurableSet.iUnion measurableSet_escape
  have he : {g | ¬ ∀ j, numbers R 4 g ∉ Escape j} = numbers R 4 ⁻¹' ⋃ j, Escape j := by
    ext g
    simp
  have hpr : IsProbabilityMeasure (inputs ((gauss 4).prod unifLaw)) := by unfold inputs; infer_instance
  refine ⟨?_, ?_, ⟨?_⟩⟩
  · rw [he, ← Measure.map_apply hmeas hU, hlaw]
    exact escape_total
  · rw [he]
    exact hmeas hU
  · rw [← Set.preimage_univ (f := numbers R 4), ← Measure.map_apply hmeas MeasurableSet.univ, hlaw, measure_univ]

theorem trap_prob_real [MeasurableSpace σ] {Q : Measure σ} (hQ : Ideal R Q) : 31 / 32 ≤ Q.real {g | ∀ j, numbers R 4 g ∉ Escape j} := by
  obtain ⟨h1, h2, h3⟩ := trap_prob hQ
  have h4 : {g | ∀ j, numbers R 4 g ∉ Escape j} = {g | ¬ ∀ j, numbers R 4 g ∉ Escape j}ᶜ := by
    ext g
    simp
  rw [h4, probReal_compl_eq_one_sub h2]
  have : Q.real {g | ¬ ∀ j, numbers R 4 g ∉ Escape j} ≤ 1 / 32 := ENNReal.toReal_le_of_le_ofReal (by norm_num) h1
  linarith

/-- With probability at least 31/32 no sample of `trapArgs` is ever off the plane, however long the call is, although almost
every point is.  (Compare `C96_mcmc_x0` and `C96_mcmc_start`.) -/
theorem C96_mcmc_x0_violated [MeasurableSpace σ] {Q : Measure σ} (hQ : Ideal R Q) (hR : R.Ok) :
    (∀ᵐ x : Vec ℝ 8, x ∈ OffPlane) ∧ 31 / 32 ≤ Q.real {g | ∀ (m fuel : Nat) (o : Sampling.Output σ ℝ 8),
      (MCMC.sample R fuel (trapArgs m) g).1 = .ok o →
      ∃ qs : List (Vec ℝ 8), o.xall = some (qs.map point) ∧ qs.length = m ∧ ∀ q ∈ qs, q ∉ OffPlane} := by
  have := (trap_prob hQ).2.2
  refine ⟨offPlane_ae, (trap_prob_real hQ).trans (measureReal_mono fun g hg m fuel o h => ?_)⟩
  exact trap_run hR h hg

/-- The share of the samples off the plane is zero with probability at least 31/32, and its mean is one.
(Compare `C101_mcmc_x0` and `C101_mcmc_start`.) -/
theorem C101_mcmc_x0_violated [MeasurableSpace σ] {Q : Measure σ} (hQ : Ideal R Q) (hR : R.Ok) :
    mean (fun x => Real.exp (-trap x)) (OffPlane.indicator 1) = 1 ∧ 31 / 32 ≤ Q.real {g | ∀ (m fuel : Nat)
      (o : Sampling.Output σ ℝ 8), (MCMC.sample R fuel (trapArgs m) g).1 = .ok o →
      ∃ qs : List (Vec ℝ 8), o.xall = some (qs.map point) ∧ qs.length = m ∧ average (OffPlane.indicator 1) qs = 0} := by
  have := (trap_prob hQ).2.2
  refine ⟨mean_offPlane, (trap_prob_real hQ).trans (measureReal_mono fun g hg m fuel o h => ?_)⟩
  obtain ⟨qs, h1, h2, h3⟩ := trap_run hR h hg
  refine ⟨qs, h1, h2, ?_⟩
  unfold average
  rw [show qs.map (OffPlane.indicator (1 : Vec ℝ 8 → ℝ)) = qs.map fun _ => 0 from List.map_congr_left fun q hq =>
    Set.indicator_of_notMem (h3 q hq) _]
  simp

/-- No sample, however late, is off the plane with probability more than 1/32; under the density it is off the plane with
probability one.  (Compare `C102_mcmc_x0` and `C102_mcmc_start`.) -/
theorem C102_mcmc_x0_violated [MeasurableSpace σ] {Q : Measure σ} (hQ : Ideal R Q) (hR : R.Ok) :
    mean (fun x => Real.exp (-trap x)) (OffPlane.indicator 1) = 1 ∧ ∀ k m fuel : Nat,
      Q.real {g | SampleIn (MCMC.sample R fuel (trapArgs m) g).1 k OffPlane} ≤ 1 / 32 := by
  have := (trap_prob hQ).2.2
  refine ⟨mean_offPlane, fun k m fuel => ?_⟩
  refine le_trans (measureReal_mono (s₂ := {g | ¬ ∀ j, numbers R 4 g ∉ Escape j}) ?_)
    (ENNReal.toReal_le_of_le_ofReal (by norm_num) (trap_prob hQ).1)
  rintro g ⟨o, ho, xs, hxs, q, hq, hk⟩ hg
  obtain ⟨qs, h1, -, h3⟩ := trap_run hR ho hg
  obtain rfl := Option.some.inj (h1.symm.trans hxs)
  obtain ⟨q', hq', hqq⟩ := List.mem_map.1 (List.mem_of_getElem? hk)
  have : q' = q := funext fun j => Val.fin.inj (congrFun hqq j)
  exact h3 q' hq' (this ▸ hq)

end Runs

/-! ## Concrete cases -/

namespace Concrete

/-- An ideal generator, and calls that return. -/
example : Ideal streamRng streamLaw ∧ streamRng.Ok ∧
    ∀ (g : Nat → ℝ × ℝ) (m : Nat), 1 ≤ m → ∃ o, (MCMC.sample streamRng m (trapArgs m) g).1 = .ok o :=
  ⟨stream_ideal, streamRng_ok, fun g _ hm => trap_returns streamRng_ok g hm⟩

/-- From almost every other start the averages over the samples of the same call converge. -/
example : ∀ᵐ x : Vec ℝ 8, ∀ᵐ g ∂streamLaw, ∀ ε > 0, ∃ N : Nat, ∀ (m fuel : Nat) (o : Sampling.Output (Nat → ℝ × ℝ) ℝ 8), N ≤ m →
    (MCMC.sample streamRng fuel { trapArgs m with x0 := some (asArray x) } g).1 = .ok o →
    ∃ qs : List (Vec ℝ 8), o.xall = some (qs.map point) ∧ |average (OffPlane.indicator 1) qs - 1| < ε := by
  have h := C101_mcmc_x0 stream_ideal streamRng_ok (a := trapArgs 1) (φ := trap) rfl (fun _ => rfl) measurable_trap
    trap_integrable (by rintro ⟨⟩) (fun c => by rw [trap_scale]; exact one_ne_zero) (by decide) rfl rfl
    (h := OffPlane.indicator 1) (measurable_one.indicator measurableSet_offPlane) ?_
  · rw [← mean_offPlane]
    exact h
  · have hi : Integrable fun x => Real.exp (-trap x) := by
      refine ⟨(Real.measurable_exp.comp measurable_trap.neg).aestronglyMeasurable, ?_⟩
      rw [hasFiniteIntegral_iff_ofReal (Eventually.of_forall fun x => (Real.exp_pos _).le)]
      exact lt_top_iff_ne_top.2 trap_integrable
    refine hi.congr (offPlane_ae.mono fun x hx => ?_)
    dsimp only
    rw [Set.indicator_of_mem hx]
    exact (one_mul _).symm

end Concrete

end Stochopy
