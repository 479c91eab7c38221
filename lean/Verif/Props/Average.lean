import Verif.Props.RecurHMC

/-!
# C101: averages over the samples converge to means under the density `exp (-f)`

An ideal generator is described in `Spec/Ideal.lean`, `mean` and `average` in `Spec/Average.lean`.
-/

set_option linter.unusedSectionVars false

namespace Stochopy
open MeasureTheory hiding average
open Spec Sampling ProbabilityTheory Filter Topology Concrete
open scoped ENNReal

/-! ## 'mcmc' -/

/-- The chain of 'mcmc' with independent normal and uniform numbers, for any measurable objective with a finite integral of
`exp (-f)`: from almost every starting point and with probability one the averages of `h` converge to its mean. -/
theorem C101_mcmc_kernel {n : Nat} (hn : 0 < n) {f : Vec ℝ n → ℝ} (hf : Measurable f)
    (hint : ∫⁻ x, ENNReal.ofReal (Real.exp (-f x)) ≠ ∞) {scale : Vec ℝ n} (hs : ∀ c, scale c ≠ 0) {per : Nat}
    (hper : 0 < per) {h : Vec ℝ n → ℝ} (hh : Measurable h) (hhi : Integrable fun x => h x * Real.exp (-f x)) :
    ∀ᵐ x, ∀ᵐ ω ∂(inputs ((gauss per).prod unifLaw)),
      Tendsto (fun m : Nat => (∑ k ∈ Finset.range m, h (chain (mcmcNext f scale hper) x ω k)) / m) atTop
        (𝓝 (mean (fun x => Real.exp (-f x)) h)) := by
  have hbc : 0 < blockCount n per := by
    unfold blockCount
    exact Nat.div_pos (by omega) hper
  refine rounds_average (P := (gauss per).prod unifLaw) (w := fun x => Real.exp (-f x)) (Real.measurable_exp.comp hf.neg)
    (fun x => Real.exp_pos _) hint (l := (List.range (blockCount n per)).map (blockStep f scale hper)) (by simpa using hbc) ?_ ?_ ?_ ?_
    hh hhi
  · intro next h
    obtain ⟨i, -, rfl⟩ := List.mem_map.1 h
    exact measurable_blockStep hf scale hper i
  · intro next h
    obtain ⟨i, -, rfl⟩ := List.mem_map.1 h
    exact blockStep_balance hf scale hper i
  · intro k i h
    have h' : i < blockCount n per := by simpa using h
    rw [List.getElem_map, List.getElem_range, List.length_map, List.length_range]
    unfold mcmcNext blockStep
    rw [Nat.add_comm, Nat.add_mul_mod_self_right, Nat.mod_eq_of_lt h']
  · intro B hB hv x
    rw [reach_blockStep hf scale hper hB]
    have := C95_mcmc_kernel hf hs hper hB hv (blockCount n per) 0 (le_refl _) x
    have he : walkSteps f scale per 0 (blockCount n per) = (List.range (blockCount n per)).map (walkStep f scale per) := by
      unfold walkSteps
      refine List.map_congr_left fun i hi => ?_
      rw [Nat.zero_add, Nat.mod_eq_of_lt (List.mem_range.1 hi)]
    rw [he] at this
    exact this.ne'

theorem blockCount_one {n per : Nat} (hn : 0 < n) (h : n ≤ per) : blockCount n per = 1 := by
  unfold blockCount
  rw [show n + per - 1 = n - 1 + per by omega, Nat.add_div_right _ (by omega), Nat.div_eq_of_lt (by omega)]

theorem mcmcNext_one {n : Nat} (hn : 0 < n) {f : Vec ℝ n → ℝ} {scale : Vec ℝ n} {per : Nat} (hper : 0 < per) (hle : n ≤ per) :
    mcmcNext f scale hper = fun _ => blockStep f scale hper 0 := by
  funext k x ω
  unfold mcmcNext blockStep
  rw [blockCount_one hn hle, Nat.mod_one]

/-- What the every-start lemmas need, when all coordinates are moved together. -/
theorem mcmc_moves {n : Nat} (hn : 0 < n) {f : Vec ℝ n → ℝ} (hf : Measurable f) {scale : Vec ℝ n} (hs : ∀ c, scale c ≠ 0) {per : Nat}
    (hper : 0 < per) (hle : n ≤ per) :
    (∀ x N, volume N = 0 → ((gauss per).prod unifLaw) {r | blockStep f scale hper 0 x r ≠ x ∧ blockStep f scale hper 0 x r ∈ N} = 0) ∧
    ∀ x, ((gauss per).prod unifLaw) {r | blockStep f scale hper 0 x r ≠ x} ≠ 0 := by
  constructor
  · intro x N hN
    obtain ⟨t, ht, htm, ht0⟩ := exists_measurable_superset_of_null hN
    have h1 := walk_jump (f := f) hs hle x ht0
    have h2 := blockStep_law hf scale hper 0 x ((measurableSet_singleton x).compl.inter htm)
    refine measure_mono_null (fun r hr => ?_) (h2.trans h1)
    exact ⟨hr.1, ht hr.2⟩
  · intro x
    have hB : MeasurableSet ({x}ᶜ : Set (Vec ℝ n)) := (measurableSet_singleton x).compl
    have hv : volume ({x}ᶜ : Set (Vec ℝ n)) ≠ 0 := by
      intro h
      haveI : Nonempty (Fin n) := ⟨⟨0, hn⟩⟩
      have h1 : (volume : Measure (Vec ℝ n)) {x} = 0 := measure_singleton x
      have h2 : (volume : Measure (Vec ℝ n)) Set.univ = 0 := by
        rw [← Set.union_compl_self {x}]
        exact measure_union_null h1 h
      exact NeZero.ne (volume : Measure (Vec ℝ n)) (Measure.measure_univ_eq_zero.1 h2)
    have h1 := C95_mcmc_kernel hf hs hper hB hv 1 0 (by rw [blockCount_one hn hle]) x
    have h2 := blockStep_law hf scale hper 0 x hB
    have h3 : reach ((gauss n).prod unifLaw) {x}ᶜ (walkSteps f scale per 0 1) x =
        ((gauss n).prod unifLaw) {ω | walkStep f scale per 0 x ω ∈ ({x}ᶜ : Set (Vec ℝ n))} := by
      have h4 : MeasurableSet {ω | walkStep f scale per 0 x ω ∈ ({x}ᶜ : Set (Vec ℝ n))} :=
        ((measurable_walkStep hf scale per 0).comp measurable_prodMk_left) hB
      rw [← lintegral_indicator_one h4]
      unfold walkSteps
      rw [blockCount_one hn hle]
      rfl
    rw [h3, ← h2] at h1
    exact h1.ne'

/-- When all coordinates are moved together the averages converge from every starting point. -/
theorem C101_mcmc_kernel_start {n : Nat} (hn : 0 < n) {f : Vec ℝ n → ℝ} (hf : Measurable f)
    (hint : ∫⁻ x, ENNReal.ofReal (Real.exp (-f x)) ≠ ∞) {scale : Vec ℝ n} (hs : ∀ c, scale c ≠ 0) {per : Nat}
    (hper : 0 < per) (hle : n ≤ per) {h : Vec ℝ n → ℝ} (hh : Measurable h) (hhi : Integrable fun x => h x * Real.exp (-f x))
    (x : Vec ℝ n) :
    ∀ᵐ ω ∂(inputs ((gauss per).prod unifLaw)),
      Tendsto (fun m : Nat => (∑ k ∈ Finset.range m, h (chain (mcmcNext f scale hper) x ω k)) / m) atTop
        (𝓝 (mean (fun x => Real.exp (-f x)) h)) := by
  have h1 := C101_mcmc_kernel hn hf hint hs hper hh hhi
  rw [mcmcNext_one hn hper hle] at h1 ⊢
  obtain ⟨h2, h3⟩ := mcmc_moves hn hf hs hper hle
  exact average_every (measurable_blockStep hf scale hper 0) h2 h3 hh h1 x

/-- The visits of C96 from every starting point, when all coordinates are moved together. -/
theorem C96_mcmc_kernel_start {n : Nat} (hn : 0 < n) {f : Vec ℝ n → ℝ} (hf : Measurable f)
    (hint : ∫⁻ x, ENNReal.ofReal (Real.exp (-f x)) ≠ ∞) {scale : Vec ℝ n} (hs : ∀ c, scale c ≠ 0) {per : Nat}
    (hper : 0 < per) (hle : n ≤ per) {B : Set (Vec ℝ n)} (hB : MeasurableSet B) (hv : 0 < volume B) (x : Vec ℝ n) :
    ∀ᵐ ω ∂(inputs ((gauss per).prod unifLaw)), ∃ᶠ k in atTop, chain (mcmcNext f scale hper) x ω k ∈ B := by
  have h1 := C96_mcmc_kernel hn hf hint hs hper hB hv
  rw [mcmcNext_one hn hper hle] at h1 ⊢
  obtain ⟨h2, h3⟩ := mcmc_moves hn hf hs hper hle
  exact often_every (measurable_blockStep hf scale hper 0) h2 h3 hB h1 x

/-- The averages over the samples of 'hmc' converge from every starting point, under the conditions of `C96_hmc_kernel_partial`. -/
theorem C101_hmc_kernel_partial {n : Nat} (hn : 0 < n) {f : Vec ℝ n → ℝ} (hf : Measurable f)
    (hint : ∫⁻ x, ENNReal.ofReal (Real.exp (-f x)) ≠ ∞) {γ : Vec ℝ n → Vec ℝ n} (hγ : Measurable γ) {ε : Vec ℝ n}
    (hε : ∀ c, ε c ≠ 0) {κ e : ℝ} (hκ : 0 ≤ κ) (he0 : 0 ≤ e) (he : ∀ c, |ε c| ≤ e)
    (hl : ∀ x y, ‖γ x - γ y‖ ≤ κ * ‖x - y‖) {L : Nat} (hL : 1 ≤ L) (hshort : (L * e) ^ 2 * κ ≤ 1)
    {h : Vec ℝ n → ℝ} (hh : Measurable h) (hhi : Integrable fun x => h x * Real.exp (-f x)) (x : Vec ℝ n) :
    ∀ᵐ ω ∂(inputs ((gauss n).prod unifLaw)),
      Tendsto (fun m : Nat => (∑ k ∈ Finset.range m, h (chain (fun _ => hamiltonianStep f γ ε L) x ω k)) / m) atTop
        (𝓝 (mean (fun x => Real.exp (-f x)) h)) := by
  refine average_every (measurable_hamiltonianStep hf hγ ε L)
    (fun x N hN => hamiltonian_jump hκ hl he hε hL hshort he0 x hN) (hmc_moves hn hε hκ he0 he hl hL hshort) hh ?_ x
  refine rounds_average (P := (gauss n).prod unifLaw) (w := fun x => Real.exp (-f x)) (Real.measurable_exp.comp hf.neg)
    (fun x => Real.exp_pos _) hint (l := [hamiltonianStep f γ ε L]) Nat.one_pos ?_ ?_ ?_ ?_ hh hhi
  · intro next h
    rw [List.mem_singleton.1 h]
    exact measurable_hamiltonianStep hf hγ ε L
  · intro next h
    rw [List.mem_singleton.1 h]
    exact hamiltonian_balance hf hγ ε L
  · intro k i h
    obtain rfl : i = 0 := by simpa using h
    rfl
  · intro B hB hv x
    exact hmc_reach hf hγ hε hκ he0 he hl hL hshort hB hv x

/-! ## Runs -/

/-- The average over a list that is an initial part of a sequence. -/
theorem average_list {X : Type} (h : X → ℝ) {qs : List X} {y : Nat → X} {m : Nat} (hlen : qs.length = m)
    (hk : ∀ k < m, qs[k]? = some (y k)) : average h qs = (∑ k ∈ Finset.range m, h (y k)) / m := by
  have hqs : qs = (List.range m).map y := by
    refine List.ext_getElem? fun k => ?_
    by_cases hkm : k < m
    · rw [hk k hkm, List.getElem?_map, List.getElem?_range hkm]
      rfl
    · rw [List.getElem?_eq_none (by omega), List.getElem?_eq_none (by simpa using hkm)]
  unfold average
  rw [hlen, hqs, List.map_map]
  congr 1

section Runs
variable {σ : Type} {R : Rng σ ℝ} {fuel : Nat} {g : σ}

theorem mcmc_samples (hR : R.Ok) {a : MCMC.Args ℝ} {o : Sampling.Output σ ℝ a.ndim} {fn : Vec (Val ℝ) a.ndim → Val ℝ}
    (hfn : a.fn = some fn) {φ : Vec ℝ a.ndim → ℝ} (hφ : ∀ x, fn (point x) = .fin (φ x))
    (hc : a.constraints ≠ some "Reject") (hall : a.returnAll = true) (h : (MCMC.sample R fuel a g).1 = .ok o)
    {q : Vec ℝ a.ndim} (hq : ∀ x, FirstSample R a.toArgs g x → x = point q) :
    ∃ qs : List (Vec ℝ a.ndim), o.xall = some (qs.map point) ∧ (qs.length : Int) = a.maxiter ∧ ∀ k : Nat, (k : Int) < a.maxiter →
      qs[k]? = some (chain (mcmcNext φ (scaleOf a.toArgs) (blockSize_pos a.perc a.ndim)) q
        (numbers R (blockSize a.perc a.ndim) (genStart R a.toArgs g)) k) := by
  obtain ⟨qs, h1, h2, -⟩ := C45_mcmc hR hfn hφ hc h
  obtain ⟨xs, ms, hrun, hx, -⟩ := C44_mcmc hR hfn h
  have hxs : xs = qs.map point := Option.some.inj ((hx hall).symm.trans (h1 hall))
  refine ⟨qs, h1 hall, h2, fun k hk => ?_⟩
  have h0 : xs[0]? = some (point q) := by
    have hpos : 0 < xs.length := by
      rw [hxs, List.length_map]
      omega
    have hget : xs[0]? = some xs[0] := List.getElem?_eq_getElem hpos
    rw [hget, hq _ (hrun.first _ hget)]
  have h3 := mcmc_chain hR hfn hφ hc hall h (h1 hall) (hxs ▸ h0) k hk
  rw [List.getElem?_map] at h3
  obtain ⟨y, hy, hyx⟩ := Option.map_eq_some_iff.1 h3
  rw [hy]
  refine congrArg some (funext fun j => ?_)
  exact Val.fin.inj (congrFun hyx j)

/-- From chains to runs. -/
theorem mcmc_run_average (hR : R.Ok) {a : MCMC.Args ℝ}
    {fn : Vec (Val ℝ) a.ndim → Val ℝ} (hfn : a.fn = some fn) {φ : Vec ℝ a.ndim → ℝ} (hφ : ∀ x, fn (point x) = .fin (φ x))
    (hc : a.constraints ≠ some "Reject") (hall : a.returnAll = true) {h : Vec ℝ a.ndim → ℝ} {c : ℝ}
    {q : Vec ℝ a.ndim} (hq : ∀ x, FirstSample R a.toArgs g x → x = point q) {g' : σ} (hg' : genStart R a.toArgs g = g')
    (hlim : Tendsto (fun m : Nat => (∑ k ∈ Finset.range m,
      h (chain (mcmcNext φ (scaleOf a.toArgs) (blockSize_pos a.perc a.ndim)) q (numbers R (blockSize a.perc a.ndim) g') k)) / m)
      atTop (𝓝 c)) :
    ∀ ε > 0, ∃ N : Nat, ∀ (m fuel : Nat) (o : Sampling.Output σ ℝ a.ndim), N ≤ m →
      (MCMC.sample R fuel { a with maxiter := m } g).1 = .ok o →
      ∃ qs : List (Vec ℝ a.ndim), o.xall = some (qs.map point) ∧ |average h qs - c| < ε := by
  intro ε hε
  obtain ⟨N, hN⟩ := eventually_atTop.1 ((Metric.tendsto_nhds.1 hlim) ε hε)
  refine ⟨N, fun m fuel o hm ho => ?_⟩
  obtain ⟨qs, h1, h2, h3⟩ := mcmc_samples hR (a := { a with maxiter := m }) hfn hφ hc hall ho hq
  refine ⟨qs, h1, ?_⟩
  have h2' : (qs.length : Int) = m := h2
  rw [average_list h (m := m) (by omega) fun k hk => h3 k (by show (k : Int) < m; omega)]
  have := hN m hm
  rw [Real.dist_eq] at this
  subst hg'
  exact this

/-- 'mcmc' without constraints and with a random first sample, drawn like everything else from an ideal generator: with probability
one, the average of `h` over the samples of a call with sufficiently many iterations is as close as wanted to the mean of `h` under
the density proportional to `exp (-f)`.  (`a.maxiter` is replaced by `m`.) -/
theorem C101_mcmc [MeasurableSpace σ] {Q : Measure σ} (hQ : Ideal R Q) (hR : R.Ok) {a : MCMC.Args ℝ}
    {fn : Vec (Val ℝ) a.ndim → Val ℝ} (hfn : a.fn = some fn) {φ : Vec ℝ a.ndim → ℝ} (hφ : ∀ x, fn (point x) = .fin (φ x))
    (hm : Measurable φ) (hint : ∫⁻ x, ENNReal.ofReal (Real.exp (-φ x)) ≠ ∞) (hc : a.constraints ≠ some "Reject")
    (hs : ∀ c, scaleOf a.toArgs c ≠ 0) (hn : 0 < a.ndim) (hx0 : a.x0 = none) (hseed : a.seed = none)
    (hall : a.returnAll = true) {h : Vec ℝ a.ndim → ℝ} (hh : Measurable h) (hhi : Integrable fun x => h x * Real.exp (-φ x)) :
    ∀ᵐ g ∂Q, ∀ ε > 0, ∃ N : Nat, ∀ (m fuel : Nat) (o : Sampling.Output σ ℝ a.ndim), N ≤ m →
      (MCMC.sample R fuel { a with maxiter := m } g).1 = .ok o →
      ∃ qs : List (Vec ℝ a.ndim), o.xall = some (qs.map point) ∧ |average h qs - mean (fun x => Real.exp (-φ x)) h| < ε := by
  have h1 := C101_mcmc_kernel hn hm hint hs (blockSize_pos a.perc a.ndim) hh hhi
  have hd : ∀ c : Fin a.ndim, a.bounds.get [c, 1] - a.bounds.get [c, 0] ≠ 0 := by
    intro c hc
    refine hs c ?_
    unfold scaleOf
    rw [hc, zero_div, mul_zero]
  have h2 := box_ae (fun j : Fin a.ndim => a.bounds.get [j, 0]) (fun j => a.bounds.get [j, 1] - a.bounds.get [j, 0]) hd h1
  have hmb : Measurable (boxPoint a.toArgs) :=
    measurable_pi_lambda _ fun j => ((measurable_pi_apply j).const_mul _).const_add _
  have hmn : ∀ k, Measurable fun e : Vec ℝ a.ndim × (Vec ℝ (blockSize a.perc a.ndim) × ℝ) =>
      mcmcNext φ (scaleOf a.toArgs) (blockSize_pos a.perc a.ndim) k e.1 e.2 := fun k =>
    measurable_blockStep hm (scaleOf a.toArgs) (blockSize_pos a.perc a.ndim) _
  have h3 : ∀ᵐ z ∂((Measure.pi fun _ : Fin a.ndim => unifLaw).prod (inputs ((gauss (blockSize a.perc a.ndim)).prod unifLaw))),
      Tendsto (fun m : Nat => (∑ k ∈ Finset.range m,
        h (chain (mcmcNext φ (scaleOf a.toArgs) (blockSize_pos a.perc a.ndim)) (boxPoint a.toArgs z.1) z.2 k)) / m) atTop
        (𝓝 (mean (fun x => Real.exp (-φ x)) h)) := by
    have hmm : ∀ m : Nat, Measurable fun z : Vec ℝ a.ndim × (Nat → Vec ℝ (blockSize a.perc a.ndim) × ℝ) => (∑ k ∈ Finset.range m,
        h (chain (mcmcNext φ (scaleOf a.toArgs) (blockSize_pos a.perc a.ndim)) (boxPoint a.toArgs z.1) z.2 k)) / m := fun m =>
      (Finset.measurable_sum _ fun k _ => hh.comp ((measurable_chain hmn k).comp
        ((hmb.comp measurable_fst).prodMk measurable_snd))).div_const _
    exact (Measure.ae_prod_iff_ae_ae (measurableSet_tendsto _ hmm)).2 h2
  obtain ⟨hmeas, hlaw⟩ := hQ.start a.ndim (blockSize a.perc a.ndim)
  rw [← hlaw] at h3
  refine (ae_of_ae_map hmeas.aemeasurable h3).mono fun g hg => ?_
  refine mcmc_run_average hR hfn hφ hc hall (q := boxPoint a.toArgs (drawVec R.rand a.ndim g).1) (fun x hx => ?_) ?_ hg
  · unfold FirstSample at hx
    simp only [hx0, hseed] at hx
    rw [hx]
    rfl
  · unfold genStart
    simp only [hx0, hseed]

/-- The same for almost every given first sample. -/
theorem C101_mcmc_x0 [MeasurableSpace σ] {Q : Measure σ} (hQ : Ideal R Q) (hR : R.Ok) {a : MCMC.Args ℝ}
    {fn : Vec (Val ℝ) a.ndim → Val ℝ} (hfn : a.fn = some fn) {φ : Vec ℝ a.ndim → ℝ} (hφ : ∀ x, fn (point x) = .fin (φ x))
    (hm : Measurable φ) (hint : ∫⁻ x, ENNReal.ofReal (Real.exp (-φ x)) ≠ ∞) (hc : a.constraints ≠ some "Reject")
    (hs : ∀ c, scaleOf a.toArgs c ≠ 0) (hn : 0 < a.ndim) (hseed : a.seed = none)
    (hall : a.returnAll = true) {h : Vec ℝ a.ndim → ℝ} (hh : Measurable h) (hhi : Integrable fun x => h x * Real.exp (-φ x)) :
    ∀ᵐ x : Vec ℝ a.ndim, ∀ᵐ g ∂Q, ∀ ε > 0, ∃ N : Nat, ∀ (m fuel : Nat) (o : Sampling.Output σ ℝ a.ndim), N ≤ m →
      (MCMC.sample R fuel { a with maxiter := m, x0 := some (asArray x) } g).1 = .ok o →
      ∃ qs : List (Vec ℝ a.ndim), o.xall = some (qs.map point) ∧ |average h qs - mean (fun x => Real.exp (-φ x)) h| < ε := by
  refine (C101_mcmc_kernel hn hm hint hs (blockSize_pos a.perc a.ndim) hh hhi).mono fun x hx => ?_
  obtain ⟨hmeas, hlaw⟩ := hQ.numbers (blockSize a.perc a.ndim)
  rw [← hlaw] at hx
  refine (ae_of_ae_map hmeas.aemeasurable hx).mono fun g hg => ?_
  refine mcmc_run_average hR (a := { a with x0 := some (asArray x) }) hfn hφ hc hall (q := x) (fun y hy => ?_) ?_ hg
  · rw [hy rfl]
    funext j
    show Val.fin (if h : j.val < a.ndim then x ⟨j.val, h⟩ else 0) = Val.fin (x j)
    rw [dif_pos j.isLt]
  · unfold genStart
    simp only [hseed]

/-- With the default `perc=1` the same for every given first sample. -/
theorem C101_mcmc_start [MeasurableSpace σ] {Q : Measure σ} (hQ : Ideal R Q) (hR : R.Ok) {a : MCMC.Args ℝ}
    {fn : Vec (Val ℝ) a.ndim → Val ℝ} (hfn : a.fn = some fn) {φ : Vec ℝ a.ndim → ℝ} (hφ : ∀ x, fn (point x) = .fin (φ x))
    (hm : Measurable φ) (hint : ∫⁻ x, ENNReal.ofReal (Real.exp (-φ x)) ≠ ∞) (hc : a.constraints ≠ some "Reject")
    (hs : ∀ c, scaleOf a.toArgs c ≠ 0) (hn : 0 < a.ndim) (hp : a.perc = 1) {x : NdArr ℝ} (hx0 : a.x0 = some x)
    (hshape : x.shape = [a.ndim]) (hseed : a.seed = none) (hall : a.returnAll = true) {h : Vec ℝ a.ndim → ℝ} (hh : Measurable h)
    (hhi : Integrable fun x => h x * Real.exp (-φ x)) :
    ∀ᵐ g ∂Q, ∀ ε > 0, ∃ N : Nat, ∀ (m fuel : Nat) (o : Sampling.Output σ ℝ a.ndim), N ≤ m →
      (MCMC.sample R fuel { a with maxiter := m } g).1 = .ok o →
      ∃ qs : List (Vec ℝ a.ndim), o.xall = some (qs.map point) ∧ |average h qs - mean (fun x => Real.exp (-φ x)) h| < ε := by
  have hb : a.ndim ≤ blockSize a.perc a.ndim := by
    unfold blockSize
    rw [hp, one_mul, Nat.floor_natCast]
    omega
  have h1 := C101_mcmc_kernel_start hn hm hint hs (blockSize_pos a.perc a.ndim) hb hh hhi fun j => x.get [j]
  obtain ⟨hmeas, hlaw⟩ := hQ.numbers (blockSize a.perc a.ndim)
  rw [← hlaw] at h1
  refine (ae_of_ae_map hmeas.aemeasurable h1).mono fun g hg => ?_
  refine mcmc_run_average hR hfn hφ hc hall (q := fun j => x.get [j]) (fun y hy => ?_) ?_ hg
  · unfold FirstSample at hy
    simp only [hx0] at hy
    rw [hy hshape]
    rfl
  · unfold genStart
    simp only [hx0, hseed]

/-- C96 with the default `perc=1` for every given first sample. -/
theorem C96_mcmc_start [MeasurableSpace σ] {Q : Measure σ} (hQ : Ideal R Q) (hR : R.Ok) {a : MCMC.Args ℝ}
    {fn : Vec (Val ℝ) a.ndim → Val ℝ} (hfn : a.fn = some fn) {φ : Vec ℝ a.ndim → ℝ} (hφ : ∀ x, fn (point x) = .fin (φ x))
    (hm : Measurable φ) (hint : ∫⁻ x, ENNReal.ofReal (Real.exp (-φ x)) ≠ ∞) (hc : a.constraints ≠ some "Reject")
    (hs : ∀ c, scaleOf a.toArgs c ≠ 0) (hn : 0 < a.ndim) (hp : a.perc = 1) {x : NdArr ℝ} (hx0 : a.x0 = some x)
    (hshape : x.shape = [a.ndim]) (hseed : a.seed = none) (hall : a.returnAll = true) {B : Set (Vec ℝ a.ndim)}
    (hB : MeasurableSet B) (hv : 0 < volume B) :
    ∀ᵐ g ∂Q, ∀ visits : Nat, ∃ N : Nat, ∀ (m fuel : Nat) (o : Sampling.Output σ ℝ a.ndim), N ≤ m →
      (MCMC.sample R fuel { a with maxiter := m } g).1 = .ok o →
      ∃ xs, o.xall = some xs ∧ ∃ ks : Finset Nat, ks.card = visits ∧ ∀ k ∈ ks, ∃ q ∈ B, xs[k]? = some (point q) := by
  have hb : a.ndim ≤ blockSize a.perc a.ndim := by
    unfold blockSize
    rw [hp, one_mul, Nat.floor_natCast]
    omega
  have h1 := C96_mcmc_kernel_start hn hm hint hs (blockSize_pos a.perc a.ndim) hb hB hv fun j => x.get [j]
  obtain ⟨hmeas, hlaw⟩ := hQ.numbers (blockSize a.perc a.ndim)
  rw [← hlaw] at h1
  refine (ae_of_ae_map hmeas.aemeasurable h1).mono fun g hg visits => ?_
  obtain ⟨N, ks, hcard, hks⟩ := enough_visits hg visits
  refine ⟨N, fun m fuel o hNm h => ?_⟩
  obtain ⟨qs, e1, -, e3⟩ := mcmc_samples hR (a := { a with maxiter := m }) hfn hφ hc hall h (q := fun j => x.get [j]) (by
    intro y hy
    unfold FirstSample at hy
    simp only [hx0] at hy
    rw [hy hshape]
    rfl)
  have hg' : genStart R { a.toArgs with maxiter := m } g = g := by
    unfold genStart
    simp only [hx0, hseed]
  refine ⟨_, e1, ks, hcard, fun k hk => ⟨_, (hks k hk).2, ?_⟩⟩
  have hkm : k < m := lt_of_lt_of_le (hks k hk).1 hNm
  rw [List.getElem?_map, e3 k (by show (k : Int) < m; omega)]
  show some (point (chain _ _ (numbers R _ (genStart R { a.toArgs with maxiter := m } g)) k)) = _
  rw [hg']
  rfl

/-! ## 'hmc' -/

theorem hmc_run_average (hR : R.Ok) {a : HMC.Args ℝ}
    {fn : Vec (Val ℝ) a.ndim → Val ℝ} (hfn : a.fn = some fn) {φ : Vec ℝ a.ndim → ℝ} (hφ : ∀ x, fn (point x) = .fin (φ x))
    (hh : a.fdStep ≠ 0) (hj : a.jac = none) (hc : a.constraints ≠ some "Reject") (hall : a.returnAll = true)
    {h : Vec ℝ a.ndim → ℝ} {c : ℝ} {q : Vec ℝ a.ndim} (hq : ∀ x, FirstSample R a.toArgs g x → x = point q) {g' : σ}
    (hg' : genStart R a.toArgs g = g')
    (hlim : Tendsto (fun m : Nat => (∑ k ∈ Finset.range m,
      h (chain (fun _ => hamiltonianStep φ (centralGradient φ a.fdStep) (scaleOf a.toArgs) (a.nleap.toNat + 1)) q
        (numbers R a.ndim g') k)) / m) atTop (𝓝 c)) :
    ∀ ε > 0, ∃ N : Nat, ∀ (m : Nat) (o : Sampling.Output σ ℝ a.ndim), N ≤ m →
      (HMC.sample R { a with maxiter := m } g).1 = .ok o →
      ∃ qs : List (Vec ℝ a.ndim), o.xall = some (qs.map point) ∧ |average h qs - c| < ε := by
  intro ε hε
  obtain ⟨N, hN⟩ := eventually_atTop.1 ((Metric.tendsto_nhds.1 hlim) ε hε)
  refine ⟨N, fun m o hm ho => ?_⟩
  obtain ⟨qs, h1, h2, h3⟩ := hmc_chain hR (a := { a with maxiter := m }) hfn hφ hh hj hc hall ho hq
  refine ⟨qs, h1, ?_⟩
  have h2' : (qs.length : Int) = m := h2
  rw [average_list h (m := m) (by omega) fun k hk => h3 k (by show (k : Int) < m; omega)]
  have := hN m hm
  rw [Real.dist_eq] at this
  subst hg'
  exact this

/-- 'hmc' without constraints and without a gradient function, with a random first sample, under the conditions of
`C96_hmc_kernel_partial` for the finite differences. -/
theorem C101_hmc_partial [MeasurableSpace σ] {Q : Measure σ} (hQ : Ideal R Q) (hR : R.Ok) {a : HMC.Args ℝ}
    {fn : Vec (Val ℝ) a.ndim → Val ℝ} (hfn : a.fn = some fn) {φ : Vec ℝ a.ndim → ℝ} (hφ : ∀ x, fn (point x) = .fin (φ x))
    (hm : Measurable φ) (hint : ∫⁻ x, ENNReal.ofReal (Real.exp (-φ x)) ≠ ∞) (hfd : a.fdStep ≠ 0) (hj : a.jac = none)
    (hc : a.constraints ≠ some "Reject") (hs : ∀ c, scaleOf a.toArgs c ≠ 0) (hn : 0 < a.ndim) {κ e : ℝ} (hκ : 0 ≤ κ) (he0 : 0 ≤ e)
    (he : ∀ c, |scaleOf a.toArgs c| ≤ e)
    (hl : ∀ x y, ‖centralGradient φ a.fdStep x - centralGradient φ a.fdStep y‖ ≤ κ * ‖x - y‖)
    (hshort : (((a.nleap.toNat + 1 : Nat) : ℝ) * e) ^ 2 * κ ≤ 1) (hx0 : a.x0 = none) (hseed : a.seed = none)
    (hall : a.returnAll = true) {h : Vec ℝ a.ndim → ℝ} (hh : Measurable h) (hhi : Integrable fun x => h x * Real.exp (-φ x)) :
    ∀ᵐ g ∂Q, ∀ ε > 0, ∃ N : Nat, ∀ (m : Nat) (o : Sampling.Output σ ℝ a.ndim), N ≤ m →
      (HMC.sample R { a with maxiter := m } g).1 = .ok o →
      ∃ qs : List (Vec ℝ a.ndim), o.xall = some (qs.map point) ∧ |average h qs - mean (fun x => Real.exp (-φ x)) h| < ε := by
  have hγ := C45_hmc_gradient hm a.fdStep
  set step := hamiltonianStep φ (centralGradient φ a.fdStep) (scaleOf a.toArgs) (a.nleap.toNat + 1) with hstep
  have hmn : Measurable fun e : Vec ℝ a.ndim × (Vec ℝ a.ndim × ℝ) => step e.1 e.2 := measurable_hamiltonianStep hm hγ _ _
  have h1 := C101_hmc_kernel_partial hn hm hint hγ hs hκ he0 he hl (L := a.nleap.toNat + 1) (by omega) hshort hh hhi
  have hmb : Measurable (boxPoint a.toArgs) :=
    measurable_pi_lambda _ fun j => ((measurable_pi_apply j).const_mul _).const_add _
  have h3 : ∀ᵐ z ∂((Measure.pi fun _ : Fin a.ndim => unifLaw).prod (inputs ((gauss a.ndim).prod unifLaw))),
      Tendsto (fun m : Nat => (∑ k ∈ Finset.range m, h (chain (fun _ => step) (boxPoint a.toArgs z.1) z.2 k)) / m) atTop
        (𝓝 (mean (fun x => Real.exp (-φ x)) h)) := by
    have hmm : ∀ m : Nat, Measurable fun z : Vec ℝ a.ndim × (Nat → Vec ℝ a.ndim × ℝ) => (∑ k ∈ Finset.range m,
        h (chain (fun _ => step) (boxPoint a.toArgs z.1) z.2 k)) / m := fun m =>
      (Finset.measurable_sum _ fun k _ => hh.comp ((measurable_chain (fun _ => hmn) k).comp
        ((hmb.comp measurable_fst).prodMk measurable_snd))).div_const _
    exact (Measure.ae_prod_iff_ae_ae (measurableSet_tendsto _ hmm)).2 (ae_of_all _ fun u => h1 (boxPoint a.toArgs u))
  obtain ⟨hmeas, hlaw⟩ := hQ.start a.ndim a.ndim
  rw [← hlaw] at h3
  refine (ae_of_ae_map hmeas.aemeasurable h3).mono fun g hg => ?_
  refine hmc_run_average hR hfn hφ hfd hj hc hall (q := boxPoint a.toArgs (drawVec R.rand a.ndim g).1) (fun x hx => ?_) ?_ hg
  · unfold FirstSample at hx
    simp only [hx0, hseed] at hx
    rw [hx]
    rfl
  · unfold genStart
    simp only [hx0, hseed]

/-- The same for every given first sample. -/
theorem C101_hmc_x0_partial [MeasurableSpace σ] {Q : Measure σ} (hQ : Ideal R Q) (hR : R.Ok) {a : HMC.Args ℝ}
    {fn : Vec (Val ℝ) a.ndim → Val ℝ} (hfn : a.fn = some fn) {φ : Vec ℝ a.ndim → ℝ} (hφ : ∀ x, fn (point x) = .fin (φ x))
    (hm : Measurable φ) (hint : ∫⁻ x, ENNReal.ofReal (Real.exp (-φ x)) ≠ ∞) (hfd : a.fdStep ≠ 0) (hj : a.jac = none)
    (hc : a.constraints ≠ some "Reject") (hs : ∀ c, scaleOf a.toArgs c ≠ 0) (hn : 0 < a.ndim) {κ e : ℝ} (hκ : 0 ≤ κ) (he0 : 0 ≤ e)
    (he : ∀ c, |scaleOf a.toArgs c| ≤ e)
    (hl : ∀ x y, ‖centralGradient φ a.fdStep x - centralGradient φ a.fdStep y‖ ≤ κ * ‖x - y‖)
    (hshort : (((a.nleap.toNat + 1 : Nat) : ℝ) * e) ^ 2 * κ ≤ 1) {x : NdArr ℝ} (hx0 : a.x0 = some x)
    (hshape : x.shape = [a.ndim]) (hseed : a.seed = none) (hall : a.returnAll = true)
    {h : Vec ℝ a.ndim → ℝ} (hh : Measurable h) (hhi : Integrable fun x => h x * Real.exp (-φ x)) :
    ∀ᵐ g ∂Q, ∀ ε > 0, ∃ N : Nat, ∀ (m : Nat) (o : Sampling.Output σ ℝ a.ndim), N ≤ m →
      (HMC.sample R { a with maxiter := m } g).1 = .ok o →
      ∃ qs : List (Vec ℝ a.ndim), o.xall = some (qs.map point) ∧ |average h qs - mean (fun x => Real.exp (-φ x)) h| < ε := by
  have hγ := C45_hmc_gradient hm a.fdStep
  have h1 := C101_hmc_kernel_partial hn hm hint hγ hs hκ he0 he hl (L := a.nleap.toNat + 1) (by omega) hshort hh hhi
    fun j => x.get [j]
  obtain ⟨hmeas, hlaw⟩ := hQ.numbers a.ndim
  rw [← hlaw] at h1
  refine (ae_of_ae_map hmeas.aemeasurable h1).mono fun g hg => ?_
  refine hmc_run_average hR hfn hφ hfd hj hc hall (q := fun j => x.get [j]) (fun y hy => ?_) ?_ hg
  · unfold FirstSample at hy
    simp only [hx0] at hy
    rw [hy hshape]
    rfl
  · unfold genStart
    simp only [hx0, hseed]

/-- The half-line above `|x|` has positive probability under the density proportional to `exp (-y²)`. -/
theorem above_mean_pos (x : ℝ) :
    0 < mean (fun y : Vec ℝ 1 => Real.exp (-∑ j, y j ^ 2)) ({y : Vec ℝ 1 | |x| < y 0}.indicator 1) := by
  set U : Set (Vec ℝ 1) := {y | |x| < y 0} with hU
  have hUo : IsOpen U := isOpen_lt continuous_const (continuous_apply 0)
  have hw : Measurable fun y : Vec ℝ 1 => Real.exp (-∑ j, y j ^ 2) :=
    Real.measurable_exp.comp (Finset.measurable_sum _ fun j _ => (measurable_pi_apply j).pow_const 2).neg
  have hwi : Integrable fun y : Vec ℝ 1 => Real.exp (-∑ j, y j ^ 2) := by
    refine ⟨hw.aestronglyMeasurable, ?_⟩
    rw [hasFiniteIntegral_iff_ofReal (ae_of_all _ fun y => (Real.exp_pos _).le)]
    exact lt_top_iff_ne_top.2 (squares_integrable 1)
  unfold mean
  refine div_pos ?_ ?_
  · have : (fun y : Vec ℝ 1 => U.indicator 1 y * Real.exp (-∑ j, y j ^ 2)) =
        U.indicator fun y => Real.exp (-∑ j, y j ^ 2) := by
      funext y
      by_cases hy : y ∈ U
      · rw [Set.indicator_of_mem hy, Set.indicator_of_mem hy]
        exact one_mul _
      · rw [Set.indicator_of_notMem hy, Set.indicator_of_notMem hy, zero_mul]
    rw [this, integral_indicator hUo.measurableSet, setIntegral_pos_iff_support_of_nonneg_ae
      (ae_of_all _ fun y => (Real.exp_pos _).le) hwi.integrableOn]
    have hs : Function.support (fun y : Vec ℝ 1 => Real.exp (-∑ j, y j ^ 2)) = Set.univ :=
      Set.eq_univ_of_forall fun y => (Real.exp_pos _).ne'
    rw [hs, Set.univ_inter]
    exact hUo.measure_pos volume ⟨fun _ => |x| + 1, by show |x| < |x| + 1; linarith⟩
  · rw [integral_pos_iff_support_of_nonneg (fun y => (Real.exp_pos _).le) hwi]
    have hs : Function.support (fun y : Vec ℝ 1 => Real.exp (-∑ j, y j ^ 2)) = Set.univ :=
      Set.eq_univ_of_forall fun y => (Real.exp_pos _).ne'
    rw [hs]
    exact pos_iff_ne_zero.2 fun h0 => NeZero.ne (volume : Measure (Vec ℝ 1)) (Measure.measure_univ_eq_zero.1 h0)

/-- Without the condition on the trajectories the averages of 'hmc' can miss the mean: for the call `periodicArgs` (the square in one
dimension) started in `x`, with any generator, any state and any number of iterations, the share of the samples with `|x| < y` is
zero, but the mean is not. -/
theorem C101_hmc_violated (hR : R.Ok) (x : ℝ) :
    ∃ h : Vec ℝ 1 → ℝ, Measurable h ∧ (∀ y, 0 ≤ h y ∧ h y ≤ 1) ∧ 0 < mean (fun y : Vec ℝ 1 => Real.exp (-∑ j, y j ^ 2)) h ∧
      ∀ (g : σ) (m : Nat), ∃ o, ∃ qs : List (Vec ℝ 1), (HMC.sample R (periodicArgs x m) g).1 = .ok o ∧
        o.xall = some (qs.map point) ∧ qs.length = m + 1 ∧ average h qs = 0 := by
  set U : Set (Vec ℝ 1) := {y | |x| < y 0} with hU
  have hUo : IsOpen U := isOpen_lt continuous_const (continuous_apply 0)
  refine ⟨U.indicator 1, measurable_const.indicator hUo.measurableSet, fun y => ?_, ?_, fun g m => ?_⟩
  · by_cases hy : y ∈ U
    · rw [Set.indicator_of_mem hy]
      exact ⟨zero_le_one, le_refl _⟩
    · rw [Set.indicator_of_notMem hy]
      exact ⟨le_refl _, zero_le_one⟩
  · exact above_mean_pos x
  · obtain ⟨o, xs, h1, h2, h3, h4⟩ := C95_hmc_violated hR g x m
    have h5 : ∀ y ∈ xs, ∃ q : Vec ℝ 1, q ∉ U ∧ y = point q := by
      intro y hy
      rcases h4 y hy with rfl | rfl
      · exact ⟨fun _ => x, fun h => absurd (le_abs_self x) (not_le.2 h), rfl⟩
      · exact ⟨fun _ => -x, fun h => absurd (neg_le_abs x) (not_le.2 h), rfl⟩
    obtain ⟨qs, hqs, hno⟩ : ∃ qs : List (Vec ℝ 1), xs = qs.map point ∧ ∀ q ∈ qs, q ∉ U := by
      clear h2 h3 h4
      induction xs with
      | nil => exact ⟨[], rfl, by simp⟩
      | cons y ys ih =>
        obtain ⟨qs, e1, e2⟩ := ih fun z hz => h5 z (List.mem_cons_of_mem _ hz)
        obtain ⟨q, e3, e4⟩ := h5 y (List.mem_cons_self ..)
        refine ⟨q :: qs, by rw [e1, e4]; rfl, fun z hz => ?_⟩
        rcases List.mem_cons.1 hz with rfl | hz
        · exact e3
        · exact e2 z hz
    refine ⟨o, qs, h1, h2.trans (congrArg some hqs), h3 ▸ ((congrArg List.length hqs).trans (List.length_map ..)).symm, ?_⟩
    unfold average
    have : qs.map (U.indicator (1 : Vec ℝ 1 → ℝ)) = qs.map fun _ => 0 :=
      List.map_congr_left fun q hq => Set.indicator_of_notMem (hno q hq) _
    rw [this]
    simp

end Runs

/-! ## Concrete cases -/

namespace Concrete

/-- By symmetry, half of the mass of `exp (-x²)` is where the first coordinate is positive. -/
theorem mean_half (n : Nat) :
    mean (fun x : Vec ℝ (n + 1) => Real.exp (-∑ j, x j ^ 2)) ({x | 0 < x 0}.indicator 1) = 1 / 2 := by
  have hw : Measurable fun y : Vec ℝ (n + 1) => Real.exp (-∑ j, y j ^ 2) :=
    Real.measurable_exp.comp (Finset.measurable_sum _ fun j _ => (measurable_pi_apply j).pow_const 2).neg
  have hwi : Integrable fun y : Vec ℝ (n + 1) => Real.exp (-∑ j, y j ^ 2) := by
    refine ⟨hw.aestronglyMeasurable, ?_⟩
    rw [hasFiniteIntegral_iff_ofReal (ae_of_all _ fun y => (Real.exp_pos _).le)]
    exact lt_top_iff_ne_top.2 (squares_integrable (n + 1))
  have hU : MeasurableSet {x : Vec ℝ (n + 1) | 0 < x 0} := measurableSet_lt measurable_const (measurable_pi_apply 0)
  have e1 : ∫ x : Vec ℝ (n + 1), {x | 0 < x 0}.indicator 1 x * Real.exp (-∑ j, x j ^ 2) =
      ∫ x in {x : Vec ℝ (n + 1) | 0 < x 0}, Real.exp (-∑ j, x j ^ 2) := by
    rw [← integral_indicator hU]
    refine integral_congr_ae (ae_of_all _ fun y => ?_)
    by_cases hy : y ∈ {x : Vec ℝ (n + 1) | 0 < x 0}
    · simp only [Set.indicator_of_mem hy]
      exact one_mul _
    · simp only [Set.indicator_of_notMem hy, zero_mul]
  have e2 : ∫ x in {x : Vec ℝ (n + 1) | 0 < x 0}ᶜ, Real.exp (-∑ j, x j ^ 2) =
      ∫ x in {x : Vec ℝ (n + 1) | 0 < x 0}, Real.exp (-∑ j, x j ^ 2) := by
    have hnull : (volume : Measure (Vec ℝ (n + 1))) {x | x 0 = 0} = 0 := Measure.pi_hyperplane _ 0 0
    have h1 : ∫ x in {x : Vec ℝ (n + 1) | 0 < x 0}ᶜ, Real.exp (-∑ j, x j ^ 2) =
        ∫ x in {x : Vec ℝ (n + 1) | x 0 < 0}, Real.exp (-∑ j, x j ^ 2) := by
      refine setIntegral_congr_set ?_
      have : ∀ᵐ x : Vec ℝ (n + 1), x 0 ≠ 0 := by
        rw [ae_iff]
        simpa using hnull
      filter_upwards [this] with x hx
      refine propext ⟨fun h => lt_of_le_of_ne (not_lt.1 h) hx, fun h => not_lt.2 (le_of_lt h)⟩
    rw [h1, ← integral_indicator hU, ← integral_indicator (measurableSet_lt (measurable_pi_apply 0) measurable_const),
      ← integral_neg_eq_self]
    refine integral_congr_ae (ae_of_all _ fun y => ?_)
    have h2 : Real.exp (-∑ j, (-y) j ^ 2) = Real.exp (-∑ j, y j ^ 2) := by simp
    by_cases hy : 0 < y 0
    · have h3 : (-y) ∈ {x : Vec ℝ (n + 1) | x 0 < 0} := neg_lt_zero.2 hy
      simp only [Set.indicator_of_mem h3, Set.indicator_of_mem (show y ∈ {x : Vec ℝ (n + 1) | 0 < x 0} from hy), h2]
    · have h3 : (-y) ∉ {x : Vec ℝ (n + 1) | x 0 < 0} := fun h => hy (neg_lt_zero.1 h)
      simp only [Set.indicator_of_notMem h3, Set.indicator_of_notMem (show y ∉ {x : Vec ℝ (n + 1) | 0 < x 0} from hy)]
  have e3 : 0 < ∫ x : Vec ℝ (n + 1), Real.exp (-∑ j, x j ^ 2) := by
    rw [integral_pos_iff_support_of_nonneg (fun y => (Real.exp_pos _).le) hwi]
    have hs : Function.support (fun y : Vec ℝ (n + 1) => Real.exp (-∑ j, y j ^ 2)) = Set.univ :=
      Set.eq_univ_of_forall fun y => (Real.exp_pos _).ne'
    rw [hs]
    exact pos_iff_ne_zero.2 fun h0 => NeZero.ne (volume : Measure (Vec ℝ (n + 1))) (Measure.measure_univ_eq_zero.1 h0)
  unfold mean
  rw [e1]
  have e4 := integral_add_compl hU hwi
  rw [e2] at e4
  rw [← e4] at e3 ⊢
  rw [div_eq_div_iff e3.ne' two_ne_zero]
  ring

theorem half_integrable (n : Nat) :
    Integrable fun x : Vec ℝ (n + 1) => {x | 0 < x 0}.indicator 1 x * Real.exp (-∑ j, x j ^ 2) := by
  have hw : Measurable fun y : Vec ℝ (n + 1) => Real.exp (-∑ j, y j ^ 2) :=
    Real.measurable_exp.comp (Finset.measurable_sum _ fun j _ => (measurable_pi_apply j).pow_const 2).neg
  have hwi : Integrable fun y : Vec ℝ (n + 1) => Real.exp (-∑ j, y j ^ 2) := by
    refine ⟨hw.aestronglyMeasurable, ?_⟩
    rw [hasFiniteIntegral_iff_ofReal (ae_of_all _ fun y => (Real.exp_pos _).le)]
    exact lt_top_iff_ne_top.2 (squares_integrable (n + 1))
  have hU : MeasurableSet {x : Vec ℝ (n + 1) | 0 < x 0} := measurableSet_lt measurable_const (measurable_pi_apply 0)
  refine (hwi.indicator hU).congr (ae_of_all _ fun y => ?_)
  by_cases hy : y ∈ {x : Vec ℝ (n + 1) | 0 < x 0}
  · simp only [Set.indicator_of_mem hy]
    exact (one_mul _).symm
  · simp only [Set.indicator_of_notMem hy, zero_mul]

theorem half_measurable (n : Nat) : Measurable ({x : Vec ℝ (n + 1) | 0 < x 0}.indicator (1 : Vec ℝ (n + 1) → ℝ)) :=
  measurable_const.indicator (measurableSet_lt measurable_const (measurable_pi_apply 0))

/-- The sum of squares of two variables, `realArgs` (which returns for every number of iterations, see `C96_mcmc`): with probability
one the share of the samples with a positive first coordinate tends to one half. -/
example : ∀ᵐ g ∂streamLaw, ∀ ε > 0, ∃ N : Nat, ∀ (m fuel : Nat) (o : Sampling.Output (Nat → ℝ × ℝ) ℝ 2), N ≤ m →
    (MCMC.sample streamRng fuel { realArgs with maxiter := m } g).1 = .ok o →
    ∃ qs : List (Vec ℝ 2), o.xall = some (qs.map point) ∧ |average ({x | 0 < x 0}.indicator 1) qs - 1 / 2| < ε := by
  have h := C101_mcmc stream_ideal streamRng_ok (a := realArgs) (φ := fun x : Vec ℝ 2 => ∑ j, x j ^ 2) rfl ?_ ?_
    (squares_integrable 2) (by rintro ⟨⟩) ?_ (by decide) rfl rfl rfl (half_measurable 1) (half_integrable 1)
  · rw [← mean_half 1]
    exact h
  · intro (x : Vec ℝ 2)
    show Val.fin (x 0 * x 0 + x 1 * x 1) = .fin (∑ j : Fin 2, x j ^ 2)
    rw [Fin.sum_univ_two]
    congr 1
    ring
  · exact Finset.measurable_sum _ fun j _ => (measurable_pi_apply j).pow_const 2
  · intro c
    show (1 / 2 : ℝ) * (((if 1 = 0 then -1 else 1 : ℝ) - (if 0 = 0 then -1 else 1 : ℝ)) / 2) ≠ 0
    norm_num

/-- The call `periodicArgs` with steps of size 1/10 and four leap-frog steps. -/
noncomputable def shortArgs (x : ℝ) (samples : Nat) : HMC.Args ℝ :=
  { periodicArgs x samples with stepsize := .scalar false (1 / 10), nleap := 4 }

/-- With the short trajectories every start will do: the same share, for 'hmc'. -/
example (x : ℝ) : (∀ (g : Nat → ℝ × ℝ) (m : Nat), ∃ o, (HMC.sample streamRng (shortArgs x m) g).1 = .ok o) ∧
    ∀ᵐ g ∂streamLaw, ∀ ε > 0, ∃ N : Nat, ∀ (m : Nat) (o : Sampling.Output (Nat → ℝ × ℝ) ℝ 1), N ≤ m →
    (HMC.sample streamRng { shortArgs x 0 with maxiter := m } g).1 = .ok o →
    ∃ qs : List (Vec ℝ 1), o.xall = some (qs.map point) ∧ |average ({x | 0 < x 0}.indicator 1) qs - 1 / 2| < ε := by
  constructor
  · intro g m
    refine C62_hmc.2 ⟨⟨⟨rfl, rfl, ?_, rfl, ?_, ?_⟩, ?_, ?_⟩, Or.inl rfl⟩
    · rintro y ⟨⟩; exact Or.inl rfl
    · rintro ⟨⟩
    · show (1 : Int) ≤ m + 1
      omega
    · show (1 : Int) ≤ 4
      omega
    · rintro ⟨⟩
  · have h := C101_hmc_x0_partial stream_ideal streamRng_ok (a := shortArgs x 0) (φ := fun x : Vec ℝ 1 => ∑ j, x j ^ 2) rfl ?_ ?_
      (squares_integrable 1) ?_ rfl (by rintro ⟨⟩) ?_ Nat.one_pos (κ := 2) (e := 1 / 10) zero_le_two (by norm_num) ?_ ?_ ?_ rfl rfl
      rfl rfl (half_measurable 0) (half_integrable 0)
    · rw [← mean_half 0]
      exact h
    · intro (z : Vec ℝ 1)
      show Val.fin (z 0) * Val.fin (z 0) = _
      rw [Val.fin_mul, Fin.sum_univ_one, sq]
    · exact Finset.measurable_sum _ fun j _ => (measurable_pi_apply j).pow_const 2
    · show (1 / 1000 : ℝ) ≠ 0
      norm_num
    · intro c
      show (1 / 10 : ℝ) * (((if 1 = 0 then -1 else 1 : ℝ) - (if 0 = 0 then -1 else 1 : ℝ)) / 2) ≠ 0
      norm_num
    · intro c
      show |(1 / 10 : ℝ) * (((if 1 = 0 then -1 else 1 : ℝ) - (if 0 = 0 then -1 else 1 : ℝ)) / 2)| ≤ 1 / 10
      norm_num
    · intro (x : Vec ℝ 1) (y : Vec ℝ 1)
      show ‖centralGradient (fun x : Vec ℝ 1 => ∑ j, x j ^ 2) (1 / 1000) x -
        centralGradient (fun x : Vec ℝ 1 => ∑ j, x j ^ 2) (1 / 1000) y‖ ≤ 2 * ‖x - y‖
      rw [centralGradient_sq (by norm_num), centralGradient_sq (by norm_num)]
      have : (fun j => 2 * x j) - (fun j => 2 * y j) = (2 : ℝ) • (x - y) := by
        funext j
        show 2 * x j - 2 * y j = 2 * (x j - y j)
        ring
      rw [this, norm_smul]
      norm_num
    · show (((4 + 1 : Nat) : ℝ) * (1 / 10)) ^ 2 * 2 ≤ 1
      norm_num

end Concrete

end Stochopy
