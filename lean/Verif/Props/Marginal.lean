import Verif.Lemmas.Marginal
import Verif.Props.Average
import Verif.Props.Endings

/-!
# C109: independent noise in the objective and the limit of averages

The objective has the value `F ξ x` when the noise is `ξ`; the noise of the requests of a run is independent of the law `ν`.
`meanWeight ν F x` is the mean of `exp (-F)` over the noise (`Spec/Marginal.lean`).
-/

set_option linter.unusedSectionVars false

namespace Stochopy
open MeasureTheory hiding average
open Spec Sampling ProbabilityTheory Filter Topology Concrete
open scoped ENNReal

section Kernel
variable {n : Nat} {Ξ : Type} [MeasurableSpace Ξ] [MeasurableSingletonClass Ξ] {ν : Measure Ξ} [IsProbabilityMeasure ν]
  {F : Ξ → Vec ℝ n → ℝ}

/-- The inputs of the chain on pairs: the numbers of the generator with the noise of all requests but the first. -/
def withNoise (ω : Nat → Vec ℝ n × ℝ) (ξ : Nat → Ξ) (k : Nat) : (Ξ × Vec ℝ n) × ℝ := ((ξ (k + 1), (ω k).1), (ω k).2)

theorem measurable_noisy_average (hF : Measurable fun e : Ξ × Vec ℝ n => F e.1 e.2) (scale : Vec ℝ n) (per : Nat)
    {h : Vec ℝ n → ℝ} (hh : Measurable h) (m : Nat) :
    Measurable fun z : (Ξ × Vec ℝ n) × (Nat → (Ξ × Vec ℝ n) × ℝ) =>
      (∑ k ∈ Finset.range m, h (chain (fun _ => noisyStep F scale per 0) z.1 z.2 k).2) / m :=
  (Finset.measurable_sum _ fun k _ => hh.comp (measurable_snd.comp
    (measurable_chain (fun _ => measurable_noisyStep hF scale per 0) k))).div_const _

/-- The chain of pairs with independent normal and uniform numbers and independent noise, when all coordinates are moved together:
from every starting point and with probability one the averages of `h` converge to its mean under the averaged density. -/
theorem C109_mcmc_kernel (hn : 0 < n) (hF : Measurable fun e : Ξ × Vec ℝ n => F e.1 e.2)
    (hint : ∫⁻ x, ∫⁻ ξ, ENNReal.ofReal (Real.exp (-F ξ x)) ∂ν ≠ ∞) {scale : Vec ℝ n} (hs : ∀ c, scale c ≠ 0) {per : Nat}
    (hle : n ≤ per) {h : Vec ℝ n → ℝ} (hh : Measurable h) (hhi : Integrable fun x => h x * meanWeight ν F x) (x : Vec ℝ n) :
    ∀ᵐ z ∂((inputs ((gauss n).prod unifLaw)).prod (inputs ν)),
      Tendsto (fun m : Nat => (∑ k ∈ Finset.range m,
        h (chain (fun _ => noisyStep F scale per 0) (z.2 0, x) (withNoise z.1 z.2) k).2) / m) atTop
        (𝓝 (mean (meanWeight ν F) h)) := by
  have h1 : ∀ᵐ z ∂(ν.prod (inputs ((ν.prod (gauss n)).prod unifLaw))),
      Tendsto (fun m : Nat => (∑ k ∈ Finset.range m, h (chain (fun _ => noisyStep F scale per 0) (z.1, x) z.2 k).2) / m) atTop
        (𝓝 (mean (meanWeight ν F) h)) := by
    refine (Measure.ae_prod_iff_ae_ae (measurableSet_tendsto _ fun m => (measurable_noisy_average hF scale per hh m).comp
      ((measurable_fst.prodMk measurable_const).prodMk measurable_snd))).2 ?_
    exact ae_of_all _ fun ξ => noisy_average hn hF hint hs hle hh hhi (ξ, x)
  exact noisy_inputs ν h1

end Kernel

/-! ## Runs -/

section Runs
variable {σ : Type} {R : Rng σ ℝ} {fuel : Nat} {g : σ}

theorem Spec.Ideal.prob [MeasurableSpace σ] {Q : Measure σ} (hQ : Ideal R Q) : IsProbabilityMeasure Q := by
  obtain ⟨hm, hl⟩ := hQ fun _ => true
  refine ⟨?_⟩
  have h1 := congrArg (fun μ => μ Set.univ) hl
  simp only [Measure.map_apply hm MeasurableSet.univ, Set.preimage_univ, measure_univ] at h1
  exact h1

variable {Ξ : Type}

/-- The rows of a run are the chain on pairs. -/
theorem noisy_rows (hR : R.Ok) {a : MCMC.Args ℝ} {o : Sampling.Output σ ℝ a.ndim} {F : Ξ → Vec ℝ a.ndim → ℝ}
    {ans : Nat → Vec (Val ℝ) a.ndim → Val ℝ} {ξ : Nat → Ξ} (hans : ∀ k x, ans k (point x) = .fin (F (ξ k) x))
    (hc : a.constraints ≠ some "Reject") (hall : a.returnAll = true) (hn : 0 < a.ndim) (hp : a.perc = 1)
    (h : (MCMC.sampleAns R fuel a ans g).1 = .ok o)
    {q : Vec ℝ a.ndim} (hq : ∀ x, FirstSample R a.toArgs g x → x = point q) :
    ∃ qs : List (Vec ℝ a.ndim), o.xall = some (qs.map point) ∧ (qs.length : Int) = a.maxiter ∧ ∀ k : Nat, (k : Int) < a.maxiter →
      qs[k]? = some (chain (fun _ => noisyStep F (scaleOf a.toArgs) a.ndim 0) (ξ 0, q)
        (withNoise (numbers R a.ndim (genStart R a.toArgs g)) ξ) k).2 := by
  obtain ⟨rows, ms, hrun, -, hx, -⟩ := C108_mcmc hR h
  set y := chain (fun _ => noisyStep F (scaleOf a.toArgs) a.ndim 0) (ξ 0, q)
    (withNoise (numbers R a.ndim (genStart R a.toArgs g)) ξ) with hy
  have hb : blockSize a.perc a.ndim = a.ndim := by
    unfold blockSize
    rw [hp, one_mul, Nat.floor_natCast]
    omega
  have hdec : (!decide (a.constraints = some "Reject")) = true := by simpa using hc
  have hrow : ∀ k : Nat, (k : Int) < a.maxiter → rows[k]? = some (point (y k).2, .fin (F (y k).1 (y k).2)) := by
    intro k
    induction k with
    | zero =>
      intro hk
      have hlt : 0 < rows.length := by have := hrun.length; omega
      have hget : rows[0]? = some rows[0] := List.getElem?_eq_getElem hlt
      obtain ⟨h1, -, h2⟩ := hrun.first _ hget
      have h3 := hq _ h1
      rw [h3, hans] at h2
      rw [hget]
      exact congrArg some (Prod.ext h3 h2)
    | succ k ih =>
      intro hk
      have hk0 := ih (by omega)
      have hlt : k < ms.length := by have := hrun.length; have := hrun.links.1; omega
      have hget : ms[k]? = some ms[k] := List.getElem?_eq_getElem hlt
      obtain ⟨l1, l2⟩ := hrun.links.2 k _ hget
      have hold : ms[k].old = (point (y k).2, .fin (F (y k).1 (y k).2)) := Option.some.inj (l1.symm.trans hk0)
      have hprop := hrun.proposal k _ hget
      obtain ⟨-, hreq⟩ := hrun.request hc
      obtain ⟨-, hval⟩ := hreq k _ hget
      have htest := hrun.test k _ hget
      rw [hb, hdec] at hprop htest
      set G := genAt R a.ndim true (genStart R a.toArgs g) k with hG
      have hb1 : k % blockCount a.ndim a.ndim = 0 := by rw [blockCount_one hn (le_refl _), Nat.mod_one]
      rw [hb1] at hprop
      set x' := blockMove (scaleOf a.toArgs) a.ndim 0 (y k).2 (numbers R a.ndim (genStart R a.toArgs g) k).1 with hx'
      have hpx : ms[k].prop.1 = point x' := by
        funext c
        rw [hprop c, hold]
        show (if _ then (Val.fin ((y k).2 c) + Val.fin _) else Val.fin ((y k).2 c)) = Val.fin (if _ then _ else _)
        rw [Nat.mod_eq_of_lt c.isLt]
        split_ifs <;> rfl
      rw [hpx, hans] at hval
      have hacc : ms[k].accepted = true ↔
          metropolis (Val.fin (F (y k).1 (y k).2) - Val.fin (F (ξ (k + 1)) x')) (numbers R a.ndim (genStart R a.toArgs g) k).2 = true := by
        rw [htest, metropolis_iff (by exact hR.rand_nonneg _) (by exact hR.rand_lt_one _), hold, hval]
        exact ⟨fun h => h.2, fun h => ⟨hc, h⟩⟩
      have hnext : y (k + 1) = if metropolis (Val.fin (F (y k).1 (y k).2) - Val.fin (F (ξ (k + 1)) x'))
          (numbers R a.ndim (genStart R a.toArgs g) k).2 = true then (ξ (k + 1), x') else y k := rfl
      rw [l2, hnext]
      unfold Move.next
      by_cases hA : ms[k].accepted = true
      · rw [if_pos hA, if_pos (hacc.1 hA)]
        exact congrArg some (Prod.ext hpx hval)
      · rw [if_neg hA, if_neg fun h => hA (hacc.2 h)]
        exact congrArg some hold
  have hlen := hrun.length
  refine ⟨(List.range rows.length).map fun k => (y k).2, ?_, by simpa using hlen, fun k hk => ?_⟩
  · rw [(hx hall).1]
    refine congrArg some (List.ext_getElem? fun k => ?_)
    rw [List.getElem?_map, List.getElem?_map, List.getElem?_map]
    by_cases hk : k < rows.length
    · rw [hrow k (by omega), List.getElem?_range hk]
      rfl
    · rw [List.getElem?_eq_none (by omega), List.getElem?_eq_none (by simpa using hk)]
      rfl
  · rw [List.getElem?_map, List.getElem?_range (by omega)]
    rfl

/-- From chains to runs. -/
theorem noisy_run_average (hR : R.Ok) {a : MCMC.Args ℝ} {F : Ξ → Vec ℝ a.ndim → ℝ}
    {ans : Nat → Vec (Val ℝ) a.ndim → Val ℝ} {ξ : Nat → Ξ} (hans : ∀ k x, ans k (point x) = .fin (F (ξ k) x))
    (hc : a.constraints ≠ some "Reject") (hall : a.returnAll = true) (hn : 0 < a.ndim) (hp : a.perc = 1)
    {h : Vec ℝ a.ndim → ℝ} {c : ℝ}
    {q : Vec ℝ a.ndim} (hq : ∀ x, FirstSample R a.toArgs g x → x = point q) {g' : σ} (hg' : genStart R a.toArgs g = g')
    (hlim : Tendsto (fun m : Nat => (∑ k ∈ Finset.range m,
      h (chain (fun _ => noisyStep F (scaleOf a.toArgs) a.ndim 0) (ξ 0, q) (withNoise (numbers R a.ndim g') ξ) k).2) / m)
      atTop (𝓝 c)) :
    ∀ ε > 0, ∃ N : Nat, ∀ (m fuel : Nat) (o : Sampling.Output σ ℝ a.ndim), N ≤ m →
      (MCMC.sampleAns R fuel { a with maxiter := m } ans g).1 = .ok o →
      ∃ qs : List (Vec ℝ a.ndim), o.xall = some (qs.map point) ∧ |average h qs - c| < ε := by
  intro ε hε
  obtain ⟨N, hN⟩ := eventually_atTop.1 ((Metric.tendsto_nhds.1 hlim) ε hε)
  refine ⟨N, fun m fuel o hm ho => ?_⟩
  obtain ⟨qs, h1, h2, h3⟩ := noisy_rows hR (a := { a with maxiter := m }) hans hc hall hn hp ho hq
  refine ⟨qs, h1, ?_⟩
  have h2' : (qs.length : Int) = m := h2
  rw [average_list h (m := m) (by omega) fun k hk => h3 k (by show (k : Int) < m; omega)]
  have := hN m hm
  rw [Real.dist_eq] at this
  subst hg'
  exact this

variable [MeasurableSpace σ] {Q : Measure σ} [MeasurableSpace Ξ] [MeasurableSingletonClass Ξ] {ν : Measure Ξ} [IsProbabilityMeasure ν]

/-- 'mcmc' with the default `perc=1`, without constraints and with a given first sample; the answer to request `k` is `F (ξ k) x`
with independent noise `ξ k` of law `ν`, independent of an ideal generator: with probability one, the average of `h` over the samples
of a call with sufficiently many iterations is as close as wanted to the mean of `h` under the density proportional to the mean of
`exp (-F)` over the noise. -/
theorem C109_mcmc (hQ : Ideal R Q) (hR : R.Ok) {a : MCMC.Args ℝ} {F : Ξ → Vec ℝ a.ndim → ℝ}
    (hF : Measurable fun e : Ξ × Vec ℝ a.ndim => F e.1 e.2)
    {ans : (Nat → Ξ) → Nat → Vec (Val ℝ) a.ndim → Val ℝ} (hans : ∀ ξ k x, ans ξ k (point x) = .fin (F (ξ k) x))
    (hint : ∫⁻ x, ∫⁻ ξ, ENNReal.ofReal (Real.exp (-F ξ x)) ∂ν ≠ ∞) (hc : a.constraints ≠ some "Reject")
    (hs : ∀ c, scaleOf a.toArgs c ≠ 0) (hn : 0 < a.ndim) (hp : a.perc = 1) {x : NdArr ℝ} (hx0 : a.x0 = some x)
    (hshape : x.shape = [a.ndim]) (hseed : a.seed = none) (hall : a.returnAll = true) {h : Vec ℝ a.ndim → ℝ} (hh : Measurable h)
    (hhi : Integrable fun x => h x * meanWeight ν F x) :
    ∀ᵐ z ∂(Q.prod (inputs ν)), ∀ ε > 0, ∃ N : Nat, ∀ (m fuel : Nat) (o : Sampling.Output σ ℝ a.ndim), N ≤ m →
      (MCMC.sampleAns R fuel { a with maxiter := m } (ans z.2) z.1).1 = .ok o →
      ∃ qs : List (Vec ℝ a.ndim), o.xall = some (qs.map point) ∧ |average h qs - mean (meanWeight ν F) h| < ε := by
  have := hQ.prob
  have h1 := C109_mcmc_kernel hn hF hint hs (le_refl _) hh hhi fun j => x.get [j]
  obtain ⟨hmeas, hlaw⟩ := hQ.numbers a.ndim
  have hpres := (MeasurePreserving.mk hmeas hlaw).prod (MeasurePreserving.id (inputs ν))
  refine (hpres.quasiMeasurePreserving.ae h1).mono fun z hz => ?_
  refine noisy_run_average hR (hans z.2) hc hall hn hp (q := fun j => x.get [j]) (fun y hy => ?_) ?_ hz
  · unfold FirstSample at hy
    simp only [hx0] at hy
    rw [hy hshape]
    rfl
  · unfold genStart
    simp only [hx0, hseed]

/-- The same with a random first sample. -/
theorem C109_mcmc_random (hQ : Ideal R Q) (hR : R.Ok) {a : MCMC.Args ℝ} {F : Ξ → Vec ℝ a.ndim → ℝ}
    (hF : Measurable fun e : Ξ × Vec ℝ a.ndim => F e.1 e.2)
    {ans : (Nat → Ξ) → Nat → Vec (Val ℝ) a.ndim → Val ℝ} (hans : ∀ ξ k x, ans ξ k (point x) = .fin (F (ξ k) x))
    (hint : ∫⁻ x, ∫⁻ ξ, ENNReal.ofReal (Real.exp (-F ξ x)) ∂ν ≠ ∞) (hc : a.constraints ≠ some "Reject")
    (hs : ∀ c, scaleOf a.toArgs c ≠ 0) (hn : 0 < a.ndim) (hp : a.perc = 1) (hx0 : a.x0 = none)
    (hseed : a.seed = none) (hall : a.returnAll = true) {h : Vec ℝ a.ndim → ℝ} (hh : Measurable h)
    (hhi : Integrable fun x => h x * meanWeight ν F x) :
    ∀ᵐ z ∂(Q.prod (inputs ν)), ∀ ε > 0, ∃ N : Nat, ∀ (m fuel : Nat) (o : Sampling.Output σ ℝ a.ndim), N ≤ m →
      (MCMC.sampleAns R fuel { a with maxiter := m } (ans z.2) z.1).1 = .ok o →
      ∃ qs : List (Vec ℝ a.ndim), o.xall = some (qs.map point) ∧ |average h qs - mean (meanWeight ν F) h| < ε := by
  have := hQ.prob
  have hmb : Measurable (boxPoint a.toArgs) :=
    measurable_pi_lambda _ fun j => ((measurable_pi_apply j).const_mul _).const_add _
  have hmw : Measurable fun z : (Nat → Vec ℝ a.ndim × ℝ) × (Nat → Ξ) => withNoise z.1 z.2 :=
    measurable_pi_lambda _ fun k => (((measurable_pi_apply (k + 1)).comp measurable_snd).prodMk
      (measurable_fst.comp ((measurable_pi_apply k).comp measurable_fst))).prodMk
      (measurable_snd.comp ((measurable_pi_apply k).comp measurable_fst))
  have h1 : ∀ᵐ z ∂((Measure.pi fun _ : Fin a.ndim => unifLaw).prod ((inputs ((gauss a.ndim).prod unifLaw)).prod (inputs ν))),
      Tendsto (fun m : Nat => (∑ k ∈ Finset.range m, h (chain (fun _ => noisyStep F (scaleOf a.toArgs) a.ndim 0)
        (z.2.2 0, boxPoint a.toArgs z.1) (withNoise z.2.1 z.2.2) k).2) / m) atTop (𝓝 (mean (meanWeight ν F) h)) := by
    have hme : Measurable fun z : Vec ℝ a.ndim × ((Nat → Vec ℝ a.ndim × ℝ) × (Nat → Ξ)) =>
        ((z.2.2 0, boxPoint a.toArgs z.1), withNoise z.2.1 z.2.2) :=
      (((measurable_pi_apply 0).comp (measurable_snd.comp measurable_snd)).prodMk (hmb.comp measurable_fst)).prodMk
        (hmw.comp measurable_snd)
    have hmm : ∀ m : Nat, Measurable fun z : Vec ℝ a.ndim × ((Nat → Vec ℝ a.ndim × ℝ) × (Nat → Ξ)) =>
        (∑ k ∈ Finset.range m, h (chain (fun _ => noisyStep F (scaleOf a.toArgs) a.ndim 0)
          (z.2.2 0, boxPoint a.toArgs z.1) (withNoise z.2.1 z.2.2) k).2) / m := fun m =>
      (measurable_noisy_average hF (scaleOf a.toArgs) a.ndim hh m).comp hme
    refine (Measure.ae_prod_iff_ae_ae (measurableSet_tendsto _ hmm)).2 ?_
    refine ae_of_all _ fun u => ?_
    have hk := C109_mcmc_kernel (scale := scaleOf a.toArgs) hn hF hint hs (le_refl a.ndim) hh hhi (boxPoint a.toArgs u)
    exact hk
  obtain ⟨hmeas, hlaw⟩ := hQ.start a.ndim a.ndim
  have hpres := (MeasurePreserving.mk hmeas hlaw).prod (MeasurePreserving.id (inputs ν))
  have h2 := (measurePreserving_prodAssoc (Measure.pi fun _ : Fin a.ndim => unifLaw) (inputs ((gauss a.ndim).prod unifLaw))
    (inputs ν)).quasiMeasurePreserving.ae h1
  have h3 := hpres.quasiMeasurePreserving.ae h2
  refine h3.mono fun z hz => ?_
  refine noisy_run_average hR (hans z.2) hc hall hn hp (q := boxPoint a.toArgs (drawVec R.rand a.ndim z.1).1) (fun y hy => ?_) ?_ hz
  · unfold FirstSample at hy
    simp only [hx0, hseed] at hy
    rw [hy]
    rfl
  · unfold genStart
    simp only [hx0, hseed]

end Runs

/-! ## Noise added to a function -/

section Additive
variable {n : Nat} {ν : Measure ℝ} {φ : Vec ℝ n → ℝ}

theorem additive_weight : meanWeight ν (fun ξ x => φ x + ξ) = fun x => Real.exp (-φ x) * ∫ ξ, Real.exp (-ξ) ∂ν := by
  funext x
  unfold meanWeight
  rw [← integral_const_mul]
  refine integral_congr_ae (ae_of_all _ fun ξ => ?_)
  show Real.exp (-(φ x + ξ)) = Real.exp (-φ x) * Real.exp (-ξ)
  rw [← Real.exp_add]
  congr 1
  ring

theorem additive_mean (h : Vec ℝ n → ℝ) (hpos : ∫ ξ, Real.exp (-ξ) ∂ν ≠ 0) :
    mean (meanWeight ν fun ξ x => φ x + ξ) h = mean (fun x => Real.exp (-φ x)) h := by
  rw [additive_weight]
  unfold mean
  simp only [← mul_assoc]
  rw [integral_mul_const, integral_mul_const, mul_div_mul_right _ _ hpos]

/-- The conditions of the general statements for noise that is added. -/
theorem additive_conditions [IsProbabilityMeasure ν] (hν : Integrable (fun ξ => Real.exp (-ξ)) ν) (hφ : Measurable φ)
    (hint : ∫⁻ x, ENNReal.ofReal (Real.exp (-φ x)) ≠ ∞) {h : Vec ℝ n → ℝ} (hhi : Integrable fun x => h x * Real.exp (-φ x)) :
    (Measurable fun e : ℝ × Vec ℝ n => φ e.2 + e.1) ∧ (∫⁻ x, ∫⁻ ξ, ENNReal.ofReal (Real.exp (-(φ x + ξ))) ∂ν ≠ ∞) ∧
    (Integrable fun x => h x * meanWeight ν (fun ξ x => φ x + ξ) x) ∧
    mean (meanWeight ν fun ξ x => φ x + ξ) h = mean (fun x => Real.exp (-φ x)) h := by
  have hpos : ∫ ξ, Real.exp (-ξ) ∂ν ≠ 0 := by
    intro h0
    rw [integral_eq_zero_iff_of_nonneg (fun ξ => (Real.exp_pos _).le) hν] at h0
    have h1 : ∀ᵐ ξ ∂ν, False := h0.mono fun ξ hξ => (Real.exp_pos (-ξ)).ne' hξ
    rw [eventually_false_iff_eq_bot, ae_eq_bot] at h1
    exact IsProbabilityMeasure.ne_zero ν h1
  refine ⟨(hφ.comp measurable_snd).add measurable_fst, ?_, ?_, additive_mean h hpos⟩
  · have he : ∀ x, ∫⁻ ξ, ENNReal.ofReal (Real.exp (-(φ x + ξ))) ∂ν =
        ENNReal.ofReal (Real.exp (-φ x)) * ∫⁻ ξ, ENNReal.ofReal (Real.exp (-ξ)) ∂ν := by
      intro x
      rw [← lintegral_const_mul' _ _ ENNReal.ofReal_ne_top]
      refine lintegral_congr fun ξ => ?_
      rw [← ENNReal.ofReal_mul (Real.exp_pos _).le, ← Real.exp_add]
      congr 2
      ring
    have hfin : ∫⁻ ξ, ENNReal.ofReal (Real.exp (-ξ)) ∂ν ≠ ∞ := by
      have := hν.2
      rw [hasFiniteIntegral_iff_ofReal (ae_of_all _ fun ξ => (Real.exp_pos _).le)] at this
      exact this.ne
    simp only [he]
    rw [lintegral_mul_const' _ _ hfin]
    exact ENNReal.mul_ne_top hint hfin
  · rw [additive_weight]
    simpa only [mul_assoc] using hhi.mul_const (∫ ξ, Real.exp (-ξ) ∂ν)

end Additive

/-- Noise that is added to a function does not change the limit: the averages converge to the mean under the density proportional to
`exp (-φ)`, as they do without noise (`C101_mcmc_start`).  The noise needs no mean, only a finite exponential moment. -/
theorem C109_additive {σ : Type} {R : Rng σ ℝ} [MeasurableSpace σ] {Q : Measure σ} (hQ : Ideal R Q) (hR : R.Ok) {ν : Measure ℝ}
    [IsProbabilityMeasure ν] (hν : Integrable (fun ξ => Real.exp (-ξ)) ν) {a : MCMC.Args ℝ} {φ : Vec ℝ a.ndim → ℝ} (hφ : Measurable φ)
    {ans : (Nat → ℝ) → Nat → Vec (Val ℝ) a.ndim → Val ℝ} (hans : ∀ ξ k x, ans ξ k (point x) = .fin (φ x + ξ k))
    (hint : ∫⁻ x, ENNReal.ofReal (Real.exp (-φ x)) ≠ ∞) (hc : a.constraints ≠ some "Reject")
    (hs : ∀ c, scaleOf a.toArgs c ≠ 0) (hn : 0 < a.ndim) (hp : a.perc = 1) {x : NdArr ℝ} (hx0 : a.x0 = some x)
    (hshape : x.shape = [a.ndim]) (hseed : a.seed = none) (hall : a.returnAll = true) {h : Vec ℝ a.ndim → ℝ} (hh : Measurable h)
    (hhi : Integrable fun x => h x * Real.exp (-φ x)) :
    ∀ᵐ z ∂(Q.prod (inputs ν)), ∀ ε > 0, ∃ N : Nat, ∀ (m fuel : Nat) (o : Sampling.Output σ ℝ a.ndim), N ≤ m →
      (MCMC.sampleAns R fuel { a with maxiter := m } (ans z.2) z.1).1 = .ok o →
      ∃ qs : List (Vec ℝ a.ndim), o.xall = some (qs.map point) ∧ |average h qs - mean (fun x => Real.exp (-φ x)) h| < ε := by
  obtain ⟨hF, hfin, hi, hmean⟩ := additive_conditions hν hφ hint hhi
  rw [← hmean]
  exact C109_mcmc hQ hR hF hans hfin hc hs hn hp hx0 hshape hseed hall hh hi

/-! ## Noise whose size depends on the point

A fair coin decides whether 1 is added or subtracted at the points with a positive first coordinate: the mean value of the objective is
the sum of squares, but the fraction of the samples with a positive first coordinate tends to `cosh 1 / (1 + cosh 1)` instead of `1/2`. -/

namespace Concrete

/-- A fair coin with the values `1` and `-1`. -/
noncomputable def coin : Measure ℝ := (2⁻¹ : ℝ≥0∞) • (Measure.dirac 1 + Measure.dirac (-1))

/-- Noise on one side only. -/
noncomputable def lopsided {n : Nat} (hn : 0 < n) (ξ : ℝ) (x : Vec ℝ n) : ℝ := ∑ j, x j ^ 2 + if 0 < x ⟨0, hn⟩ then ξ else 0

/-- Whether the first coordinate is positive. -/
noncomputable def right {n : Nat} (hn : 0 < n) (x : Vec ℝ n) : ℝ := if 0 < x ⟨0, hn⟩ then 1 else 0

instance : IsProbabilityMeasure coin := ⟨by
  unfold coin
  rw [Measure.smul_apply, Measure.add_apply, measure_univ, measure_univ, smul_eq_mul, one_add_one_eq_two,
    ENNReal.inv_mul_cancel two_ne_zero ENNReal.ofNat_ne_top]⟩

theorem coin_integral (f : ℝ → ℝ) : ∫ ξ, f ξ ∂coin = (f 1 + f (-1)) / 2 := by
  unfold coin
  rw [integral_smul_measure, integral_add_measure (integrable_dirac (by simp)) (integrable_dirac (by simp)), integral_dirac, integral_dirac,
    smul_eq_mul, ENNReal.toReal_inv, ENNReal.toReal_ofNat]
  ring

theorem coin_lintegral {f : ℝ → ℝ≥0∞} : ∫⁻ ξ, f ξ ∂coin = 2⁻¹ * (f 1 + f (-1)) := by
  unfold coin
  rw [lintegral_smul_measure, lintegral_add_measure, lintegral_dirac, lintegral_dirac, smul_eq_mul]

variable {n : Nat} (hn : 0 < n)

theorem measurable_right : Measurable (right hn) :=
  Measurable.ite (measurableSet_lt measurable_const (measurable_pi_apply _)) measurable_const measurable_const

theorem measurable_squares : Measurable fun x : Vec ℝ n => ∑ j, x j ^ 2 :=
  Finset.measurable_sum _ fun j _ => (measurable_pi_apply j).pow_const 2

theorem measurable_lopsided : Measurable fun e : ℝ × Vec ℝ n => lopsided hn e.1 e.2 :=
  (measurable_squares.comp measurable_snd).add
    (Measurable.ite (measurableSet_lt measurable_const ((measurable_pi_apply _).comp measurable_snd)) measurable_fst measurable_const)

theorem squares_integrable' (n : Nat) : Integrable fun x : Vec ℝ n => Real.exp (-∑ j, x j ^ 2) := by
  refine ⟨(Real.measurable_exp.comp measurable_squares.neg).aestronglyMeasurable, ?_⟩
  rw [hasFiniteIntegral_iff_ofReal (ae_of_all _ fun ξ => (Real.exp_pos _).le)]
  exact lt_top_iff_ne_top.2 (squares_integrable n)

theorem right_integrable : Integrable fun x : Vec ℝ n => right hn x * Real.exp (-∑ j, x j ^ 2) := by
  refine (squares_integrable' n).mono' ((measurable_right hn).mul
    (Real.measurable_exp.comp measurable_squares.neg)).aestronglyMeasurable (ae_of_all _ fun x => ?_)
  rw [norm_mul, Real.norm_of_nonneg (Real.exp_pos _).le]
  unfold right
  split_ifs <;> simp [Real.exp_nonneg]

/-- Half of the mass is on the right. -/
theorem right_half : ∫ x : Vec ℝ n, right hn x * Real.exp (-∑ j, x j ^ 2) = (∫ x : Vec ℝ n, Real.exp (-∑ j, x j ^ 2)) / 2 := by
  have h1 : ∫ x : Vec ℝ n, right hn (-x) * Real.exp (-∑ j, x j ^ 2) = ∫ x : Vec ℝ n, right hn x * Real.exp (-∑ j, x j ^ 2) := by
    rw [← integral_neg_eq_self fun x : Vec ℝ n => right hn x * Real.exp (-∑ j, x j ^ 2)]
    refine integral_congr_ae (ae_of_all _ fun x => ?_)
    show _ = right hn (-x) * Real.exp (-∑ j, (-x) j ^ 2)
    simp only [Pi.neg_apply, neg_sq]
  have hi' : Integrable fun x : Vec ℝ n => right hn (-x) * Real.exp (-∑ j, x j ^ 2) := by
    have := (right_integrable hn).comp_neg
    refine this.congr (ae_of_all _ fun x => ?_)
    show right hn (-x) * Real.exp (-∑ j, (-x) j ^ 2) = _
    simp only [Pi.neg_apply, neg_sq]
  have h2 : ∫ x : Vec ℝ n, Real.exp (-∑ j, x j ^ 2) =
      ∫ x : Vec ℝ n, (right hn x * Real.exp (-∑ j, x j ^ 2) + right hn (-x) * Real.exp (-∑ j, x j ^ 2)) := by
    refine integral_congr_ae ?_
    have hnull : ∀ᵐ x : Vec ℝ n, x ⟨0, hn⟩ ≠ 0 := by
      have := (Measure.quasiMeasurePreserving_eval (fun _ : Fin n => (volume : Measure ℝ)) ⟨0, hn⟩).ae
        (p := fun y => y ≠ 0) (Measure.ae_ne volume 0)
      exact this
    refine hnull.mono fun x hx => ?_
    show _ = right hn x * _ + right hn (-x) * _
    unfold right
    rw [Pi.neg_apply]
    rcases lt_or_gt_of_ne hx with h | h
    · rw [if_neg (not_lt.2 h.le), if_pos (by linarith)]; ring
    · rw [if_pos h, if_neg (by linarith)]; ring
  rw [integral_add (right_integrable hn) hi', h1] at h2
  linarith

theorem lopsided_weight : meanWeight coin (lopsided hn) = fun x => Real.exp (-∑ j, x j ^ 2) +
    (Real.cosh 1 - 1) * (right hn x * Real.exp (-∑ j, x j ^ 2)) := by
  funext x
  unfold meanWeight
  rw [coin_integral, Real.cosh_eq]
  unfold lopsided right
  split_ifs
  · rw [neg_add, neg_add, Real.exp_add, Real.exp_add, neg_neg]
    ring
  · rw [add_zero]
    ring

theorem squares_pos (n : Nat) : 0 < ∫ x : Vec ℝ n, Real.exp (-∑ j, x j ^ 2) := by
  rw [integral_pos_iff_support_of_nonneg (fun x => (Real.exp_pos _).le) (squares_integrable' n)]
  have : (Function.support fun x : Vec ℝ n => Real.exp (-∑ j, x j ^ 2)) = Set.univ := by
    ext x
    simp [Real.exp_ne_zero]
  rw [this]
  exact Measure.measure_univ_pos.2 (NeZero.ne _)

end Concrete

theorem C109_bias_violated {σ : Type} {R : Rng σ ℝ} [MeasurableSpace σ] {Q : Measure σ} (hQ : Ideal R Q) (hR : R.Ok)
    {a : MCMC.Args ℝ} (hn : 0 < a.ndim)
    {ans : (Nat → ℝ) → Nat → Vec (Val ℝ) a.ndim → Val ℝ} (hans : ∀ ξ k x, ans ξ k (point x) = .fin (lopsided hn (ξ k) x))
    (hc : a.constraints ≠ some "Reject") (hs : ∀ c, scaleOf a.toArgs c ≠ 0) (hp : a.perc = 1) {x : NdArr ℝ} (hx0 : a.x0 = some x)
    (hshape : x.shape = [a.ndim]) (hseed : a.seed = none) (hall : a.returnAll = true) :
    (∀ x, ∫ ξ, lopsided hn ξ x ∂coin = ∑ j, x j ^ 2) ∧
    mean (fun x : Vec ℝ a.ndim => Real.exp (-∑ j, x j ^ 2)) (right hn) = 1 / 2 ∧ 1 / 2 < Real.cosh 1 / (1 + Real.cosh 1) ∧
    ∀ᵐ z ∂(Q.prod (inputs coin)), ∀ ε > 0, ∃ N : Nat, ∀ (m fuel : Nat) (o : Sampling.Output σ ℝ a.ndim), N ≤ m →
      (MCMC.sampleAns R fuel { a with maxiter := m } (ans z.2) z.1).1 = .ok o →
      ∃ qs : List (Vec ℝ a.ndim), o.xall = some (qs.map point) ∧ |average (right hn) qs - Real.cosh 1 / (1 + Real.cosh 1)| < ε := by
  have hI := squares_pos a.ndim
  have hJ := right_half hn
  have hcosh : 1 < Real.cosh 1 := by
    rw [Real.cosh_eq]
    have h1 := Real.add_one_lt_exp (x := 1) one_ne_zero
    have h2 := Real.exp_pos (-1)
    linarith
  have hmean : mean (meanWeight coin (lopsided hn)) (right hn) = Real.cosh 1 / (1 + Real.cosh 1) := by
    unfold mean
    rw [lopsided_weight hn, integral_add (squares_integrable' _) ((right_integrable hn).const_mul _), integral_const_mul, hJ]
    have hnum : ∀ x : Vec ℝ a.ndim, right hn x * (Real.exp (-∑ j, x j ^ 2) +
        (Real.cosh 1 - 1) * (right hn x * Real.exp (-∑ j, x j ^ 2))) = Real.cosh 1 * (right hn x * Real.exp (-∑ j, x j ^ 2)) := by
      intro x
      unfold right
      split_ifs <;> ring
    simp only [hnum]
    rw [integral_const_mul, hJ]
    have h1 : (1 : ℝ) + Real.cosh 1 ≠ 0 := by linarith
    generalize (∫ x : Vec ℝ a.ndim, Real.exp (-∑ j, x j ^ 2)) = I at hI
    have h2 : I + (Real.cosh 1 - 1) * (I / 2) ≠ 0 := by
      have : 0 < (Real.cosh 1 - 1) * (I / 2) := mul_pos (by linarith) (by linarith)
      linarith
    rw [div_eq_div_iff h2 h1]
    ring
  refine ⟨fun x => ?_, ?_, ?_, ?_⟩
  · rw [coin_integral]
    unfold lopsided
    split_ifs <;> ring
  · unfold mean
    rw [hJ]
    field_simp
  · rw [div_lt_div_iff₀ two_pos (by linarith)]
    linarith
  · rw [← hmean]
    refine C109_mcmc hQ hR (measurable_lopsided hn) hans ?_ hc hs hn hp hx0 hshape hseed hall (measurable_right hn) ?_
    · have hle : ∀ x : Vec ℝ a.ndim, ∫⁻ ξ, ENNReal.ofReal (Real.exp (-lopsided hn ξ x)) ∂coin ≤
          ENNReal.ofReal (Real.exp 1) * ENNReal.ofReal (Real.exp (-∑ j, x j ^ 2)) := by
        intro x
        have h1 : ∀ ξ : ℝ, |ξ| ≤ 1 → ENNReal.ofReal (Real.exp (-lopsided hn ξ x)) ≤
            ENNReal.ofReal (Real.exp 1) * ENNReal.ofReal (Real.exp (-∑ j, x j ^ 2)) := by
          intro ξ hξ
          rw [← ENNReal.ofReal_mul (Real.exp_pos _).le, ← Real.exp_add]
          refine ENNReal.ofReal_le_ofReal (Real.exp_le_exp.2 ?_)
          unfold lopsided
          have := abs_le.1 hξ
          split_ifs <;> linarith
        rw [coin_lintegral]
        calc 2⁻¹ * (ENNReal.ofReal (Real.exp (-lopsided hn 1 x)) + ENNReal.ofReal (Real.exp (-lopsided hn (-1) x)))
            ≤ 2⁻¹ * (ENNReal.ofReal (Real.exp 1) * ENNReal.ofReal (Real.exp (-∑ j, x j ^ 2)) +
              ENNReal.ofReal (Real.exp 1) * ENNReal.ofReal (Real.exp (-∑ j, x j ^ 2))) := by
              gcongr
              · exact h1 1 (by simp)
              · exact h1 (-1) (by simp)
          _ = _ := by rw [← two_mul, ← mul_assoc, ENNReal.inv_mul_cancel two_ne_zero ENNReal.ofNat_ne_top, one_mul]
      refine ne_top_of_le_ne_top ?_ (lintegral_mono hle)
      rw [lintegral_const_mul' _ _ ENNReal.ofReal_ne_top]
      exact ENNReal.mul_ne_top ENNReal.ofReal_ne_top (squares_integrable _)
    · rw [lopsided_weight hn]
      refine ((right_integrable hn).const_mul (Real.cosh 1)).congr (ae_of_all _ fun x => ?_)
      show Real.cosh 1 * (right hn x * Real.exp (-∑ j, x j ^ 2)) = right hn x * (Real.exp (-∑ j, x j ^ 2) +
        (Real.cosh 1 - 1) * (right hn x * Real.exp (-∑ j, x j ^ 2)))
      unfold right
      split_ifs <;> ring

/-- With valid arguments the runs in the statements above return, whatever the noise. -/
theorem C109_returns {σ : Type} {R : Rng σ ℝ} {g : σ} {a : MCMC.Args ℝ} (hv : ValidMCMC a) (hn : 0 < a.ndim) (hp : a.perc = 1) {m : Nat}
    (hm : 1 ≤ m) (ans : Nat → Vec (Val ℝ) a.ndim → Val ℝ) :
    ∃ o, (MCMC.sampleAns R m { a with maxiter := m } ans g).1 = .ok o := by
  refine C108_mcmc_total (a := { a with maxiter := m })
    { objective := hv.objective, bounds := hv.bounds, x0 := hv.x0, stepsize := hv.stepsize, callback := hv.callback,
      maxiter := by show (1 : Int) ≤ m; omega, perc := hv.perc } hn (by show (m : Int).toNat ≤ m; omega) (Or.inl ?_) ans
  show blockSize a.perc a.ndim ∣ a.ndim
  have : blockSize a.perc a.ndim = a.ndim := by
    unfold blockSize
    rw [hp, one_mul, Nat.floor_natCast]
    omega
  rw [this]

example (m : Nat) (ans : Nat → Vec (Val ℝ) 2 → Val ℝ) (g : Nat → ℝ × ℝ) :
    ∃ o, (MCMC.sampleAns streamRng (m + 1) { realArgs with maxiter := (m + 1 : Nat) } ans g).1 = .ok o :=
  C109_returns (a := realArgs)
    { objective := rfl, bounds := rfl, x0 := by rintro x ⟨⟩, stepsize := rfl, callback := by rintro ⟨⟩, maxiter := by decide,
      perc := ⟨zero_le_one, le_refl _⟩ } (by decide) rfl (Nat.succ_le_succ (Nat.zero_le m)) ans

/-- The sum of squares of two variables plus standard normal noise, with the first sample `(1, 1)`: with probability one the share of the
samples with a positive first coordinate tends to one half. -/
example {ans : (Nat → ℝ) → Nat → Vec (Val ℝ) 2 → Val ℝ} (hans : ∀ ξ k x, ans ξ k (point x) = .fin (∑ j, x j ^ 2 + ξ k)) :
    ∀ᵐ z ∂(streamLaw.prod (inputs (gaussianReal 0 1))), ∀ ε > 0, ∃ N : Nat, ∀ (m fuel : Nat)
      (o : Sampling.Output (Nat → ℝ × ℝ) ℝ 2), N ≤ m →
    (MCMC.sampleAns streamRng fuel { realArgs with maxiter := m, x0 := some ⟨[2], fun _ => 1⟩ } (ans z.2) z.1).1 = .ok o →
    ∃ qs : List (Vec ℝ 2), o.xall = some (qs.map point) ∧ |average ({x | 0 < x 0}.indicator 1) qs - 1 / 2| < ε := by
  have h := C109_additive stream_ideal streamRng_ok (ν := gaussianReal 0 1) ?_ (a := { realArgs with x0 := some ⟨[2], fun _ => 1⟩ })
    (φ := fun x : Vec ℝ 2 => ∑ j, x j ^ 2) measurable_squares hans (squares_integrable 2) (by rintro ⟨⟩) ?_ (by decide) rfl rfl rfl rfl rfl
    (half_measurable 1) (half_integrable 1)
  · rw [← mean_half 1]
    exact h
  · simpa using integrable_exp_mul_gaussianReal (μ := 0) (v := 1) (-1)
  · intro c
    show (1 / 2 : ℝ) * (((if 1 = 0 then -1 else 1 : ℝ) - (if 0 = 0 then -1 else 1 : ℝ)) / 2) ≠ 0
    norm_num

end Stochopy
