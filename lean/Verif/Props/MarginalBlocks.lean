import Verif.Lemmas.MarginalBlocks
import Verif.Props.Marginal

/-!
# C109: independent noise in the objective and the limit of averages, for every `perc`

`Props/Marginal.lean` treats the default `perc=1` and every first sample.  Here the coordinates may be moved in blocks of any size and the
first sample is random, or any outside a set of volume 0.
-/

set_option linter.unusedSectionVars false

namespace Stochopy
open MeasureTheory hiding average
open Spec Sampling ProbabilityTheory Filter Topology Concrete
open scoped ENNReal

section Kernel
variable {n : Nat} {Ξ : Type} [MeasurableSpace Ξ] {ν : Measure Ξ} [IsProbabilityMeasure ν] {F : Ξ → Vec ℝ n → ℝ}

theorem measurable_blocks_average (hF : Measurable fun e : Ξ × Vec ℝ n => F e.1 e.2) (scale : Vec ℝ n) {per : Nat} (hper : 0 < per)
    {h : Vec ℝ n → ℝ} (hh : Measurable h) (m : Nat) :
    Measurable fun z : (Ξ × Vec ℝ n) × (Nat → (Ξ × Vec ℝ per) × ℝ) =>
      (∑ k ∈ Finset.range m, h (chain (noisyNext F scale hper) z.1 z.2 k).2) / m :=
  (Finset.measurable_sum _ fun k _ => hh.comp (measurable_snd.comp
    (measurable_chain (fun _ => measurable_noisyBlockStep hF scale hper _) k))).div_const _

/-- The chain of pairs with independent normal and uniform numbers and independent noise: from almost every starting point and with
probability one the averages of `h` converge to its mean under the averaged density. -/
theorem C109_blocks_kernel (hn : 0 < n) (hF : Measurable fun e : Ξ × Vec ℝ n => F e.1 e.2)
    (hint : ∫⁻ x, ∫⁻ ξ, ENNReal.ofReal (Real.exp (-F ξ x)) ∂ν ≠ ∞) {scale : Vec ℝ n} (hs : ∀ c, scale c ≠ 0) {per : Nat}
    (hper : 0 < per) {h : Vec ℝ n → ℝ} (hh : Measurable h) (hhi : Integrable fun x => h x * meanWeight ν F x) :
    ∀ᵐ x : Vec ℝ n, ∀ᵐ z ∂((inputs ((gauss per).prod unifLaw)).prod (inputs ν)),
      Tendsto (fun m : Nat => (∑ k ∈ Finset.range m,
        h (chain (noisyNext F scale hper) (z.2 0, x) (withNoise z.1 z.2) k).2) / m) atTop
        (𝓝 (mean (meanWeight ν F) h)) := by
  have hms := measurableSet_tendsto (l := atTop) (𝓝 (mean (meanWeight ν F) h)) fun m : Nat =>
    measurable_blocks_average hF scale hper hh m
  have h1 := (Measure.ae_prod_iff_ae_ae hms).2 (noisy_blocks_average hn hF hint hs hper hh hhi)
  -- first the point, then the noise of the first request, then the inputs
  have e1 : MeasurePreserving (fun p : Vec ℝ n × (Ξ × (Nat → (Ξ × Vec ℝ per) × ℝ)) => ((p.2.1, p.1), p.2.2))
      ((volume : Measure (Vec ℝ n)).prod (ν.prod (inputs ((ν.prod (gauss per)).prod unifLaw))))
      ((ν.prod volume).prod (inputs ((ν.prod (gauss per)).prod unifLaw))) :=
    ((Measure.measurePreserving_swap (μ := (volume : Measure (Vec ℝ n))) (ν := ν)).prod (MeasurePreserving.id _)).comp
      (measurePreserving_prodAssoc (volume : Measure (Vec ℝ n)) ν (inputs ((ν.prod (gauss per)).prod unifLaw))).symm
  have h2 := Measure.ae_ae_of_ae_prod (e1.quasiMeasurePreserving.ae h1)
  exact h2.mono fun x hx => noisy_inputs ν hx

end Kernel

/-! ## Runs -/

section Runs
variable {σ : Type} {R : Rng σ ℝ} {fuel : Nat} {g : σ} {Ξ : Type}

/-- The rows of a run are the chain on pairs. -/
theorem noisy_blocks_rows (hR : R.Ok) {a : MCMC.Args ℝ} {o : Sampling.Output σ ℝ a.ndim} {F : Ξ → Vec ℝ a.ndim → ℝ}
    {ans : Nat → Vec (Val ℝ) a.ndim → Val ℝ} {ξ : Nat → Ξ} (hans : ∀ k x, ans k (point x) = .fin (F (ξ k) x))
    (hc : a.constraints ≠ some "Reject") (hall : a.returnAll = true)
    (h : (MCMC.sampleAns R fuel a ans g).1 = .ok o)
    {q : Vec ℝ a.ndim} (hq : ∀ x, FirstSample R a.toArgs g x → x = point q) :
    ∃ qs : List (Vec ℝ a.ndim), o.xall = some (qs.map point) ∧ (qs.length : Int) = a.maxiter ∧ ∀ k : Nat, (k : Int) < a.maxiter →
      qs[k]? = some (chain (noisyNext F (scaleOf a.toArgs) (blockSize_pos a.perc a.ndim)) (ξ 0, q)
        (withNoise (numbers R (blockSize a.perc a.ndim) (genStart R a.toArgs g)) ξ) k).2 := by
  obtain ⟨rows, ms, hrun, -, hx, -⟩ := C108_mcmc hR h
  set y := chain (noisyNext F (scaleOf a.toArgs) (blockSize_pos a.perc a.ndim)) (ξ 0, q)
    (withNoise (numbers R (blockSize a.perc a.ndim) (genStart R a.toArgs g)) ξ) with hy
  have hdec : (!decide (a.constraints = some "Reject")) = true := by simpa using hc
  have hrow : ∀ k : Nat, (k : Int) < a.maxiter → rows[k]? = some (point (y k).2, .fin (F (y k).1 (y k).2)) := by
    intro k
    induction k with
    | zero =>
      intro hk
      have hlt : 0 < rows.length := by have := hrun.length; omega
      have hget : rows[0]? = some rows[0] := List.getElem?_eq_getElem hlt
      obtain ⟨h1, -, h2⟩ := hrun.first _ hget
      have h3 := hq _ h1
      rw [h3, hans] at h2
      rw [hget]
      exact congrArg some (Prod.ext h3 h2)
    | succ k ih =>
      intro hk
      have hk0 := ih (by omega)
      have hlt : k < ms.length := by have := hrun.length; have := hrun.links.1; omega
      have hget : ms[k]? = some ms[k] := List.getElem?_eq_getElem hlt
      obtain ⟨l1, l2⟩ := hrun.links.2 k _ hget
      have hold : ms[k].old = (point (y k).2, .fin (F (y k).1 (y k).2)) := Option.some.inj (l1.symm.trans hk0)
      have hprop := hrun.proposal k _ hget
      obtain ⟨-, hreq⟩ := hrun.request hc
      obtain ⟨-, hval⟩ := hreq k _ hget
      have htest := hrun.test k _ hget
      rw [hdec] at hprop htest
      set G := genAt R (blockSize a.perc a.ndim) true (genStart R a.toArgs g) k with hG
      set x' := blockMove (scaleOf a.toArgs) (blockSize a.perc a.ndim) (k % blockCount a.ndim (blockSize a.perc a.ndim)) (y k).2
        (fun c => (numbers R (blockSize a.perc a.ndim) (genStart R a.toArgs g) k).1
          ⟨c.val % blockSize a.perc a.ndim, Nat.mod_lt _ (blockSize_pos a.perc a.ndim)⟩) with hx'
      have hpx : ms[k].prop.1 = point x' := by
        funext c
        rw [hprop c, hold]
        show (if _ then (Val.fin ((y k).2 c) + Val.fin _) else Val.fin ((y k).2 c)) = Val.fin (if _ then _ else _)
        split_ifs <;> rfl
      rw [hpx, hans] at hval
      have hacc : ms[k].accepted = true ↔ metropolis (Val.fin (F (y k).1 (y k).2) - Val.fin (F (ξ (k + 1)) x'))
          (numbers R (blockSize a.perc a.ndim) (genStart R a.toArgs g) k).2 = true := by
        rw [htest, metropolis_iff (by exact hR.rand_nonneg _) (by exact hR.rand_lt_one _), hold, hval]
        exact ⟨fun h => h.2, fun h => ⟨hc, h⟩⟩
      have hnext : y (k + 1) = if metropolis (Val.fin (F (y k).1 (y k).2) - Val.fin (F (ξ (k + 1)) x'))
          (numbers R (blockSize a.perc a.ndim) (genStart R a.toArgs g) k).2 = true then (ξ (k + 1), x') else y k := rfl
      rw [l2, hnext]
      unfold Move.next
      by_cases hA : ms[k].accepted = true
      · rw [if_pos hA, if_pos (hacc.1 hA)]
        exact congrArg some (Prod.ext hpx hval)
      · rw [if_neg hA, if_neg fun h => hA (hacc.2 h)]
        exact congrArg some hold
  have hlen := hrun.length
  refine ⟨(List.range rows.length).map fun k => (y k).2, ?_, by simpa using hlen, fun k hk => ?_⟩
  · rw [(hx hall).1]
    refine congrArg some (List.ext_getElem? fun k => ?_)
    rw [List.getElem?_map, List.getElem?_map, List.getElem?_map]
    by_cases hk : k < rows.length
    · rw [hrow k (by omega), List.getElem?_range hk]
      rfl
    · rw [List.getElem?_eq_none (by omega), List.getElem?_eq_none (by simpa using hk)]
      rfl
  · rw [List.getElem?_map, List.getElem?_range (by omega)]
    rfl

/-- From chains to runs. -/
theorem noisy_blocks_run (hR : R.Ok) {a : MCMC.Args ℝ} {F : Ξ → Vec ℝ a.ndim → ℝ}
    {ans : Nat → Vec (Val ℝ) a.ndim → Val ℝ} {ξ : Nat → Ξ} (hans : ∀ k x, ans k (point x) = .fin (F (ξ k) x))
    (hc : a.constraints ≠ some "Reject") (hall : a.returnAll = true) {h : Vec ℝ a.ndim → ℝ} {c : ℝ}
    {q : Vec ℝ a.ndim} (hq : ∀ x, FirstSample R a.toArgs g x → x = point q) {g' : σ} (hg' : genStart R a.toArgs g = g')
    (hlim : Tendsto (fun m : Nat => (∑ k ∈ Finset.range m,
      h (chain (noisyNext F (scaleOf a.toArgs) (blockSize_pos a.perc a.ndim)) (ξ 0, q)
        (withNoise (numbers R (blockSize a.perc a.ndim) g') ξ) k).2) / m) atTop (𝓝 c)) :
    ∀ ε > 0, ∃ N : Nat, ∀ (m fuel : Nat) (o : Sampling.Output σ ℝ a.ndim), N ≤ m →
      (MCMC.sampleAns R fuel { a with maxiter := m } ans g).1 = .ok o →
      ∃ qs : List (Vec ℝ a.ndim), o.xall = some (qs.map point) ∧ |average h qs - c| < ε := by
  intro ε hε
  obtain ⟨N, hN⟩ := eventually_atTop.1 ((Metric.tendsto_nhds.1 hlim) ε hε)
  refine ⟨N, fun m fuel o hm ho => ?_⟩
  obtain ⟨qs, h1, h2, h3⟩ := noisy_blocks_rows hR (a := { a with maxiter := m }) hans hc hall ho hq
  refine ⟨qs, h1, ?_⟩
  have h2' : (qs.length : Int) = m := h2
  rw [average_list h (m := m) (by omega) fun k hk => h3 k (by show (k : Int) < m; omega)]
  have := hN m hm
  rw [Real.dist_eq] at this
  subst hg'
  exact this

variable [MeasurableSpace σ] {Q : Measure σ} [MeasurableSpace Ξ] {ν : Measure Ξ} [IsProbabilityMeasure ν]

/-- 'mcmc' with any `perc`, without constraints and with a random first sample; the answer to request `k` is `F (ξ k) x` with independent
noise `ξ k` of law `ν`, independent of an ideal generator: with probability one, the average of `h` over the samples of a call with
sufficiently many iterations is as close as wanted to the mean of `h` under the density proportional to the mean of `exp (-F)` over the
noise. -/
theorem C109_blocks (hQ : Ideal R Q) (hR : R.Ok) {a : MCMC.Args ℝ} {F : Ξ → Vec ℝ a.ndim → ℝ}
    (hF : Measurable fun e : Ξ × Vec ℝ a.ndim => F e.1 e.2)
    {ans : (Nat → Ξ) → Nat → Vec (Val ℝ) a.ndim → Val ℝ} (hans : ∀ ξ k x, ans ξ k (point x) = .fin (F (ξ k) x))
    (hint : ∫⁻ x, ∫⁻ ξ, ENNReal.ofReal (Real.exp (-F ξ x)) ∂ν ≠ ∞) (hc : a.constraints ≠ some "Reject")
    (hs : ∀ c, scaleOf a.toArgs c ≠ 0) (hn : 0 < a.ndim) (hx0 : a.x0 = none) (hseed : a.seed = none)
    (hall : a.returnAll = true) {h : Vec ℝ a.ndim → ℝ} (hh : Measurable h) (hhi : Integrable fun x => h x * meanWeight ν F x) :
    ∀ᵐ z ∂(Q.prod (inputs ν)), ∀ ε > 0, ∃ N : Nat, ∀ (m fuel : Nat) (o : Sampling.Output σ ℝ a.ndim), N ≤ m →
      (MCMC.sampleAns R fuel { a with maxiter := m } (ans z.2) z.1).1 = .ok o →
      ∃ qs : List (Vec ℝ a.ndim), o.xall = some (qs.map point) ∧ |average h qs - mean (meanWeight ν F) h| < ε := by
  have := hQ.prob
  set per := blockSize a.perc a.ndim with hper
  have h0 := C109_blocks_kernel hn hF hint hs (blockSize_pos a.perc a.ndim) hh hhi
  have hd : ∀ c : Fin a.ndim, a.bounds.get [c, 1] - a.bounds.get [c, 0] ≠ 0 := by
    intro c hc
    refine hs c ?_
    unfold scaleOf
    rw [hc, zero_div, mul_zero]
  have hbox := box_ae (fun j : Fin a.ndim => a.bounds.get [j, 0]) (fun j => a.bounds.get [j, 1] - a.bounds.get [j, 0]) hd h0
  have hmb : Measurable (boxPoint a.toArgs) :=
    measurable_pi_lambda _ fun j => ((measurable_pi_apply j).const_mul _).const_add _
  have hmw : Measurable fun z : (Nat → Vec ℝ per × ℝ) × (Nat → Ξ) => withNoise z.1 z.2 :=
    measurable_pi_lambda _ fun k => (((measurable_pi_apply (k + 1)).comp measurable_snd).prodMk
      (measurable_fst.comp ((measurable_pi_apply k).comp measurable_fst))).prodMk
      (measurable_snd.comp ((measurable_pi_apply k).comp measurable_fst))
  have h1 : ∀ᵐ z ∂((Measure.pi fun _ : Fin a.ndim => unifLaw).prod ((inputs ((gauss per).prod unifLaw)).prod (inputs ν))),
      Tendsto (fun m : Nat => (∑ k ∈ Finset.range m, h (chain (noisyNext F (scaleOf a.toArgs) (blockSize_pos a.perc a.ndim))
        (z.2.2 0, boxPoint a.toArgs z.1) (withNoise z.2.1 z.2.2) k).2) / m) atTop (𝓝 (mean (meanWeight ν F) h)) := by
    have hme : Measurable fun z : Vec ℝ a.ndim × ((Nat → Vec ℝ per × ℝ) × (Nat → Ξ)) =>
        ((z.2.2 0, boxPoint a.toArgs z.1), withNoise z.2.1 z.2.2) :=
      (((measurable_pi_apply 0).comp (measurable_snd.comp measurable_snd)).prodMk (hmb.comp measurable_fst)).prodMk
        (hmw.comp measurable_snd)
    have hmm : ∀ m : Nat, Measurable fun z : Vec ℝ a.ndim × ((Nat → Vec ℝ per × ℝ) × (Nat → Ξ)) =>
        (∑ k ∈ Finset.range m, h (chain (noisyNext F (scaleOf a.toArgs) (blockSize_pos a.perc a.ndim))
          (z.2.2 0, boxPoint a.toArgs z.1) (withNoise z.2.1 z.2.2) k).2) / m := fun m =>
      (measurable_blocks_average hF (scaleOf a.toArgs) (blockSize_pos a.perc a.ndim) hh m).comp hme
    exact (Measure.ae_prod_iff_ae_ae (measurableSet_tendsto _ hmm)).2 hbox
  obtain ⟨hmeas, hlaw⟩ := hQ.start a.ndim per
  have hpres := (MeasurePreserving.mk hmeas hlaw).prod (MeasurePreserving.id (inputs ν))
  have h2 := (measurePreserving_prodAssoc (Measure.pi fun _ : Fin a.ndim => unifLaw) (inputs ((gauss per).prod unifLaw))
    (inputs ν)).quasiMeasurePreserving.ae h1
  have h3 := hpres.quasiMeasurePreserving.ae h2
  refine h3.mono fun z hz => ?_
  refine noisy_blocks_run hR (hans z.2) hc hall (q := boxPoint a.toArgs (drawVec R.rand a.ndim z.1).1) (fun y hy => ?_) ?_ hz
  · unfold FirstSample at hy
    simp only [hx0, hseed] at hy
    rw [hy]
    rfl
  · unfold genStart
    simp only [hx0, hseed]

/-- The same for almost every given first sample. -/
theorem C109_blocks_x0 (hQ : Ideal R Q) (hR : R.Ok) {a : MCMC.Args ℝ} {F : Ξ → Vec ℝ a.ndim → ℝ}
    (hF : Measurable fun e : Ξ × Vec ℝ a.ndim => F e.1 e.2)
    {ans : (Nat → Ξ) → Nat → Vec (Val ℝ) a.ndim → Val ℝ} (hans : ∀ ξ k x, ans ξ k (point x) = .fin (F (ξ k) x))
    (hint : ∫⁻ x, ∫⁻ ξ, ENNReal.ofReal (Real.exp (-F ξ x)) ∂ν ≠ ∞) (hc : a.constraints ≠ some "Reject")
    (hs : ∀ c, scaleOf a.toArgs c ≠ 0) (hn : 0 < a.ndim) (hseed : a.seed = none)
    (hall : a.returnAll = true) {h : Vec ℝ a.ndim → ℝ} (hh : Measurable h) (hhi : Integrable fun x => h x * meanWeight ν F x) :
    ∀ᵐ x : Vec ℝ a.ndim, ∀ᵐ z ∂(Q.prod (inputs ν)), ∀ ε > 0, ∃ N : Nat, ∀ (m fuel : Nat) (o : Sampling.Output σ ℝ a.ndim), N ≤ m →
      (MCMC.sampleAns R fuel { a with maxiter := m, x0 := some (asArray x) } (ans z.2) z.1).1 = .ok o →
      ∃ qs : List (Vec ℝ a.ndim), o.xall = some (qs.map point) ∧ |average h qs - mean (meanWeight ν F) h| < ε := by
  have := hQ.prob
  refine (C109_blocks_kernel hn hF hint hs (blockSize_pos a.perc a.ndim) hh hhi).mono fun x hx => ?_
  obtain ⟨hmeas, hlaw⟩ := hQ.numbers (blockSize a.perc a.ndim)
  have hpres := (MeasurePreserving.mk hmeas hlaw).prod (MeasurePreserving.id (inputs ν))
  refine (hpres.quasiMeasurePreserving.ae hx).mono fun z hz => ?_
  refine noisy_blocks_run hR (a := { a with x0 := some (asArray x) }) (hans z.2) hc hall (q := x) (fun y hy => ?_) ?_ hz
  · rw [hy rfl]
    funext j
    show Val.fin (if h : j.val < a.ndim then x ⟨j.val, h⟩ else 0) = Val.fin (x j)
    rw [dif_pos j.isLt]
  · unfold genStart
    simp only [hseed]

end Runs

/-- Noise that is added to a function does not change the limit, whatever `perc`. -/
theorem C109_blocks_additive {σ : Type} {R : Rng σ ℝ} [MeasurableSpace σ] {Q : Measure σ} (hQ : Ideal R Q) (hR : R.Ok) {ν : Measure ℝ}
    [IsProbabilityMeasure ν] (hν : Integrable (fun ξ => Real.exp (-ξ)) ν) {a : MCMC.Args ℝ} {φ : Vec ℝ a.ndim → ℝ} (hφ : Measurable φ)
    {ans : (Nat → ℝ) → Nat → Vec (Val ℝ) a.ndim → Val ℝ} (hans : ∀ ξ k x, ans ξ k (point x) = .fin (φ x + ξ k))
    (hint : ∫⁻ x, ENNReal.ofReal (Real.exp (-φ x)) ≠ ∞) (hc : a.constraints ≠ some "Reject")
    (hs : ∀ c, scaleOf a.toArgs c ≠ 0) (hn : 0 < a.ndim) (hx0 : a.x0 = none)
    (hseed : a.seed = none) (hall : a.returnAll = true) {h : Vec ℝ a.ndim → ℝ} (hh : Measurable h)
    (hhi : Integrable fun x => h x * Real.exp (-φ x)) :
    ∀ᵐ z ∂(Q.prod (inputs ν)), ∀ ε > 0, ∃ N : Nat, ∀ (m fuel : Nat) (o : Sampling.Output σ ℝ a.ndim), N ≤ m →
      (MCMC.sampleAns R fuel { a with maxiter := m } (ans z.2) z.1).1 = .ok o →
      ∃ qs : List (Vec ℝ a.ndim), o.xall = some (qs.map point) ∧ |average h qs - mean (fun x => Real.exp (-φ x)) h| < ε := by
  obtain ⟨hF, hfin, hi, hmean⟩ := additive_conditions hν hφ hint hhi
  rw [← hmean]
  exact C109_blocks hQ hR hF hans hfin hc hs hn hx0 hseed hall hh hi

/-- With valid arguments and blocks of equal size the runs return, whatever the noise. -/
theorem C109_blocks_returns {σ : Type} {R : Rng σ ℝ} {g : σ} {a : MCMC.Args ℝ} (hv : ValidMCMC a) (hn : 0 < a.ndim)
    (hd : blockSize a.perc a.ndim ∣ a.ndim) {m : Nat} (hm : 1 ≤ m) (ans : Nat → Vec (Val ℝ) a.ndim → Val ℝ) :
    ∃ o, (MCMC.sampleAns R m { a with maxiter := m } ans g).1 = .ok o :=
  C108_mcmc_total (a := { a with maxiter := m })
    { objective := hv.objective, bounds := hv.bounds, x0 := hv.x0, stepsize := hv.stepsize, callback := hv.callback,
      maxiter := by show (1 : Int) ≤ m; omega, perc := hv.perc } hn (by show (m : Int).toNat ≤ m; omega) (Or.inl hd) ans

/-- One variable at a time. -/
noncomputable def Concrete.singly : MCMC.Args ℝ := { realArgs with perc := 1 / 2 }

/-- The sum of squares of two variables plus standard normal noise, one variable at a time (`perc=0.5`): with probability one the share of
the samples with a positive first coordinate tends to one half. -/
example {ans : (Nat → ℝ) → Nat → Vec (Val ℝ) 2 → Val ℝ} (hans : ∀ ξ k x, ans ξ k (point x) = .fin (∑ j, x j ^ 2 + ξ k)) :
    ∀ᵐ z ∂(streamLaw.prod (inputs (gaussianReal 0 1))), ∀ ε > 0, ∃ N : Nat, ∀ (m fuel : Nat)
      (o : Sampling.Output (Nat → ℝ × ℝ) ℝ 2), N ≤ m →
    (MCMC.sampleAns streamRng fuel { singly with maxiter := m } (ans z.2) z.1).1 = .ok o →
    ∃ qs : List (Vec ℝ 2), o.xall = some (qs.map point) ∧ |average ({x | 0 < x 0}.indicator 1) qs - 1 / 2| < ε := by
  have h := C109_blocks_additive stream_ideal streamRng_ok (ν := gaussianReal 0 1) ?_ (a := singly)
    (φ := fun x : Vec ℝ 2 => ∑ j, x j ^ 2) measurable_squares hans (squares_integrable 2) (by rintro ⟨⟩) ?_ (by decide) rfl rfl rfl
    (half_measurable 1) (half_integrable 1)
  · rw [← mean_half 1]
    exact h
  · simpa using integrable_exp_mul_gaussianReal (μ := 0) (v := 1) (-1)
  · intro c
    show (1 / 2 : ℝ) * (((if 1 = 0 then -1 else 1 : ℝ) - (if 0 = 0 then -1 else 1 : ℝ)) / 2) ≠ 0
    norm_num

example (m : Nat) (ans : Nat → Vec (Val ℝ) 2 → Val ℝ) (g : Nat → ℝ × ℝ) :
    ∃ o, (MCMC.sampleAns streamRng (m + 1) { singly with maxiter := (m + 1 : Nat) } ans g).1 = .ok o := by
  refine C109_blocks_returns (a := singly)
    { objective := rfl, bounds := rfl, x0 := by rintro x ⟨⟩, stepsize := rfl, callback := by rintro ⟨⟩, maxiter := by decide,
      perc := ⟨by show (0 : ℝ) ≤ 1 / 2; norm_num, by show (1 / 2 : ℝ) ≤ 1; norm_num⟩ } (by decide) ?_ (Nat.succ_le_succ (Nat.zero_le m)) ans
  have : blockSize singly.perc singly.ndim = 1 := by
    show max 1 ⌊(1 / 2 : ℝ) * ((2 : Nat) : ℝ)⌋₊ = 1
    norm_num
  rw [this]
  exact one_dvd _

end Stochopy
