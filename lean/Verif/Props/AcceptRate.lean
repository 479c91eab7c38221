import Verif.Props.Average
import Verif.Lemmas.AcceptRate

/-!
# C107: `accept_ratio` converges to the mean acceptance probability

`walkRate` and `hamiltonianRate` are defined in `Spec/AcceptRate.lean`, an ideal generator in `Spec/Ideal.lean`.
-/

set_option linter.unusedSectionVars false

namespace Stochopy
open MeasureTheory hiding average
open Spec Sampling ProbabilityTheory Filter Topology Concrete
open scoped ENNReal

/-! ## The laws of the acceptance test -/

theorem measurable_blockMove {n : Nat} (scale : Vec ℝ n) (per b : Nat) :
    Measurable fun e : Vec ℝ n × Vec ℝ n => blockMove scale per b e.1 e.2 := by
  simp only [blockMove_eq]
  exact measurable_fst.add ((measurable_shift scale per b).comp measurable_snd)

/-- The proposals with `per` normal numbers have the law of the proposals with `n` of them. -/
theorem blockMove_law {n : Nat} (scale : Vec ℝ n) {per : Nat} (hper : 0 < per) (b : Nat) (x : Vec ℝ n) :
    (gauss per).map (fun z => blockMove scale per b x fun c => z ⟨c.val % per, Nat.mod_lt _ hper⟩) =
      (gauss n).map (blockMove scale per b x) := by
  have hmx : Measurable (blockMove scale per b x) := (measurable_blockMove scale per b).comp measurable_prodMk_left
  have hmp : Measurable fun z : Vec ℝ per => blockMove scale per b x fun c => z ⟨c.val % per, Nat.mod_lt _ hper⟩ :=
    hmx.comp (measurable_pi_lambda _ fun c => measurable_pi_apply _)
  have hacc : ∀ (z : Vec ℝ n) (u : ℝ), u ∈ Set.Ico (0 : ℝ) 1 → walkStep (fun _ => 0) scale per b x (z, u) = blockMove scale per b x z := by
    intro z u hu
    unfold walkStep
    dsimp only
    rw [Val.fin_sub, sub_self]
    exact if_pos ((metropolis_exp hu.1 hu.2).2 (by rw [Real.exp_zero]; exact hu.2))
  have hu : ∀ᵐ u ∂unifLaw, u ∈ Set.Ico (0 : ℝ) 1 := ae_restrict_mem measurableSet_Ico
  refine Measure.ext fun A hA => ?_
  have h := blockStep_law (f := fun _ => 0) measurable_const scale hper b x hA
  have e1 : ((gauss per).prod unifLaw) {ω | blockStep (fun _ => 0) scale hper b x ω ∈ A} =
      gauss per ((fun z : Vec ℝ per => blockMove scale per b x fun c => z ⟨c.val % per, Nat.mod_lt _ hper⟩) ⁻¹' A) := by
    have h1 := congrFun (congrArg DFunLike.coe (Measure.map_fst_prod (μ := gauss per) (ν := unifLaw)))
      ((fun z : Vec ℝ per => blockMove scale per b x fun c => z ⟨c.val % per, Nat.mod_lt _ hper⟩) ⁻¹' A)
    rw [Measure.map_apply measurable_fst (hmp hA), measure_univ, one_smul] at h1
    rw [← h1]
    refine measure_congr (eventuallyEq_set.2 ((Measure.quasiMeasurePreserving_snd.ae hu).mono fun ω hω => ?_))
    exact iff_of_eq (congrArg (· ∈ A) (hacc _ ω.2 hω))
  have e2 : ((gauss n).prod unifLaw) {ω | walkStep (fun _ => 0) scale per b x ω ∈ A} = gauss n (blockMove scale per b x ⁻¹' A) := by
    have h1 := congrFun (congrArg DFunLike.coe (Measure.map_fst_prod (μ := gauss n) (ν := unifLaw)))
      (blockMove scale per b x ⁻¹' A)
    rw [Measure.map_apply measurable_fst (hmx hA), measure_univ, one_smul] at h1
    rw [← h1]
    refine measure_congr (eventuallyEq_set.2 ((Measure.quasiMeasurePreserving_snd.ae hu).mono fun ω hω => ?_))
    exact iff_of_eq (congrArg (· ∈ A) (hacc _ ω.2 hω))
  rw [Measure.map_apply hmp hA, Measure.map_apply hmx hA, ← e1, h, e2]

/-- One if iteration `k` of 'mcmc' accepts its proposal, otherwise zero. -/
noncomputable def mcmcAccepts {n : Nat} (f : Vec ℝ n → ℝ) (scale : Vec ℝ n) {per : Nat} (hper : 0 < per) (k : Nat) (x : Vec ℝ n)
    (ω : Vec ℝ per × ℝ) : ℝ :=
  acceptIndicator (f x - f (blockMove scale per (k % blockCount n per) x fun c => ω.1 ⟨c.val % per, Nat.mod_lt _ hper⟩)) ω.2

/-- One if 'hmc' accepts the end of the trajectory, otherwise zero. -/
noncomputable def hmcAccepts {n : Nat} (f : Vec ℝ n → ℝ) (γ : Vec ℝ n → Vec ℝ n) (ε : Vec ℝ n) (L : Nat) (q : Vec ℝ n)
    (ω : Vec ℝ n × ℝ) : ℝ :=
  acceptIndicator (hamiltonian f (q, ω.1) - hamiltonian f ((verlet γ ε)^[L] (q, ω.1))) ω.2

theorem measurable_acceptIndicator {α : Type} [MeasurableSpace α] {d u : α → ℝ} (hd : Measurable d) (hu : Measurable u) :
    Measurable fun e => acceptIndicator (d e) (u e) :=
  Measurable.ite (measurableSet_metropolis hd hu) measurable_const measurable_const

theorem measurable_mcmcAccepts {n : Nat} {f : Vec ℝ n → ℝ} (hf : Measurable f) (scale : Vec ℝ n) {per : Nat} (hper : 0 < per) (k : Nat) :
    Measurable fun e : Vec ℝ n × (Vec ℝ per × ℝ) => mcmcAccepts f scale hper k e.1 e.2 := by
  refine measurable_acceptIndicator ((hf.comp measurable_fst).sub (hf.comp ?_)) (measurable_snd.comp measurable_snd)
  refine (measurable_blockMove scale per _).comp (measurable_fst.prodMk ?_)
  exact measurable_pi_lambda _ fun c => (measurable_pi_apply _).comp (measurable_fst.comp measurable_snd)

theorem measurable_hmcAccepts {n : Nat} {f : Vec ℝ n → ℝ} (hf : Measurable f) {γ : Vec ℝ n → Vec ℝ n} (hγ : Measurable γ)
    (ε : Vec ℝ n) (L : Nat) : Measurable fun e : Vec ℝ n × (Vec ℝ n × ℝ) => hmcAccepts f γ ε L e.1 e.2 := by
  have h0 : Measurable fun e : Vec ℝ n × (Vec ℝ n × ℝ) => (e.1, e.2.1) :=
    measurable_fst.prodMk (measurable_fst.comp measurable_snd)
  have h1 : Measurable fun e : Vec ℝ n × (Vec ℝ n × ℝ) => (verlet γ ε)^[L] (e.1, e.2.1) :=
    ((verlet_preserving hγ ε).measurable.iterate L).comp h0
  exact measurable_acceptIndicator (((measurable_hamiltonian hf).comp h0).sub ((measurable_hamiltonian hf).comp h1))
    (measurable_snd.comp measurable_snd)

theorem integrable_of_indicator {α : Type} [MeasurableSpace α] {μ : Measure α} [IsFiniteMeasure μ] {v : α → ℝ} (hv : Measurable v)
    (h1 : ∀ e, |v e| ≤ 1) : Integrable v μ :=
  Integrable.of_bound hv.aestronglyMeasurable 1 (ae_of_all _ h1)

theorem mcmcAccepts_integral {n : Nat} {f : Vec ℝ n → ℝ} (hf : Measurable f) (scale : Vec ℝ n) {per : Nat} (hper : 0 < per) (k : Nat)
    (x : Vec ℝ n) :
    ∫ ω, mcmcAccepts f scale hper k x ω ∂((gauss per).prod unifLaw) = walkAcceptance f scale per (k % blockCount n per) x := by
  have hmx : Measurable (blockMove scale per (k % blockCount n per) x) :=
    (measurable_blockMove scale per _).comp measurable_prodMk_left
  have hmp : Measurable fun z : Vec ℝ per => blockMove scale per (k % blockCount n per) x fun c => z ⟨c.val % per, Nat.mod_lt _ hper⟩ :=
    hmx.comp (measurable_pi_lambda _ fun c => measurable_pi_apply _)
  have hm1 : Measurable fun ω => mcmcAccepts f scale hper k x ω := (measurable_mcmcAccepts hf scale hper k).comp measurable_prodMk_left
  have hg : Measurable fun y => min 1 (Real.exp (f x - f y)) :=
    measurable_const.min (Real.measurable_exp.comp (measurable_const.sub hf))
  rw [integral_prod _ (integrable_of_indicator hm1 fun ω => acceptIndicator_abs _ _)]
  unfold mcmcAccepts
  simp only [acceptIndicator_integral]
  rw [← integral_map hmp.aemeasurable (f := fun y => min 1 (Real.exp (f x - f y))) hg.aestronglyMeasurable, blockMove_law scale hper,
    integral_map hmx.aemeasurable hg.aestronglyMeasurable]
  rfl

theorem hmcAccepts_integral {n : Nat} {f : Vec ℝ n → ℝ} (hf : Measurable f) {γ : Vec ℝ n → Vec ℝ n} (hγ : Measurable γ)
    (ε : Vec ℝ n) (L : Nat) (q : Vec ℝ n) :
    ∫ ω, hmcAccepts f γ ε L q ω ∂((gauss n).prod unifLaw) = hamiltonianAcceptance f γ ε L q := by
  have hm1 : Measurable fun ω => hmcAccepts f γ ε L q ω := (measurable_hmcAccepts hf hγ ε L).comp measurable_prodMk_left
  rw [integral_prod _ (integrable_of_indicator hm1 fun ω => acceptIndicator_abs _ _)]
  unfold hmcAccepts
  simp only [acceptIndicator_integral]
  rfl

/-! ## Chains -/

/-- The chain of 'mcmc' with independent normal and uniform numbers, for any measurable objective with a finite integral of
`exp (-f)`: from almost every starting point and with probability one the share of accepted proposals converges to the mean
acceptance probability. -/
theorem C107_mcmc_kernel {n : Nat} (hn : 0 < n) {f : Vec ℝ n → ℝ} (hf : Measurable f)
    (hint : ∫⁻ x, ENNReal.ofReal (Real.exp (-f x)) ≠ ∞) {scale : Vec ℝ n} (hs : ∀ c, scale c ≠ 0) {per : Nat} (hper : 0 < per) :
    ∀ᵐ x, ∀ᵐ ω ∂(inputs ((gauss per).prod unifLaw)),
      Tendsto (fun m : Nat => (∑ k ∈ Finset.range m, mcmcAccepts f scale hper k (chain (mcmcNext f scale hper) x ω k) (ω k)) / m)
        atTop (𝓝 (walkRate f scale per)) := by
  have hbc : 0 < blockCount n per := by
    unfold blockCount
    exact Nat.div_pos (by omega) hper
  have hw : Measurable fun x => Real.exp (-f x) := Real.measurable_exp.comp hf.neg
  have := normalized_prob hw (fun x => Real.exp_pos _) hint
  have h := rounds_average_pairs (P := (gauss per).prod unifLaw) hw
    (fun x => Real.exp_pos _) hint (l := (List.range (blockCount n per)).map (blockStep f scale hper)) (by simpa using hbc) ?_ ?_
    (next := mcmcNext f scale hper) ?_ ?_ (measurable_mcmcAccepts hf scale hper) ?_
    (fun k => integrable_of_indicator (measurable_mcmcAccepts hf scale hper k) fun e => acceptIndicator_abs _ _)
  · rw [List.length_map, List.length_range] at h
    have hlim : ∀ i ∈ Finset.range (blockCount n per),
        ∫ e, mcmcAccepts f scale hper i e.1 e.2 ∂((normalized fun x => Real.exp (-f x)).prod ((gauss per).prod unifLaw)) =
          mean (fun x => Real.exp (-f x)) (walkAcceptance f scale per i) := by
      intro i hi
      rw [integral_prod _ (integrable_of_indicator (measurable_mcmcAccepts hf scale hper i) fun e => acceptIndicator_abs _ _)]
      simp only [mcmcAccepts_integral hf]
      rw [Nat.mod_eq_of_lt (Finset.mem_range.1 hi), normalized_integral hw fun x => Real.exp_pos _]
    rw [Finset.sum_congr rfl hlim] at h
    exact h
  · intro next h
    obtain ⟨i, -, rfl⟩ := List.mem_map.1 h
    exact measurable_blockStep hf scale hper i
  · intro next h
    obtain ⟨i, -, rfl⟩ := List.mem_map.1 h
    exact blockStep_balance hf scale hper i
  · intro k i h
    have h' : i < blockCount n per := by simpa using h
    rw [List.getElem_map, List.getElem_range, List.length_map, List.length_range]
    unfold mcmcNext blockStep
    rw [Nat.add_comm, Nat.add_mul_mod_self_right, Nat.mod_eq_of_lt h']
  · intro B hB hv x
    rw [reach_blockStep hf scale hper hB]
    have := C95_mcmc_kernel hf hs hper hB hv (blockCount n per) 0 (le_refl _) x
    have he : walkSteps f scale per 0 (blockCount n per) = (List.range (blockCount n per)).map (walkStep f scale per) := by
      unfold walkSteps
      refine List.map_congr_left fun i hi => ?_
      rw [Nat.zero_add, Nat.mod_eq_of_lt (List.mem_range.1 hi)]
    rw [he] at this
    exact this.ne'
  · intro k i h
    have h' : i < blockCount n per := by simpa using h
    rw [List.length_map, List.length_range]
    unfold mcmcAccepts
    rw [Nat.add_comm, Nat.add_mul_mod_self_right]

/-- When all coordinates are moved together, from every starting point. -/
theorem C107_mcmc_kernel_start {n : Nat} (hn : 0 < n) {f : Vec ℝ n → ℝ} (hf : Measurable f)
    (hint : ∫⁻ x, ENNReal.ofReal (Real.exp (-f x)) ≠ ∞) {scale : Vec ℝ n} (hs : ∀ c, scale c ≠ 0) {per : Nat} (hper : 0 < per)
    (hle : n ≤ per) (x : Vec ℝ n) :
    ∀ᵐ ω ∂(inputs ((gauss per).prod unifLaw)),
      Tendsto (fun m : Nat => (∑ k ∈ Finset.range m, mcmcAccepts f scale hper k (chain (mcmcNext f scale hper) x ω k) (ω k)) / m)
        atTop (𝓝 (walkRate f scale per)) := by
  have h1 := C107_mcmc_kernel hn hf hint hs hper
  have e : mcmcAccepts f scale hper = fun _ => mcmcAccepts f scale hper 0 := by
    funext k x ω
    unfold mcmcAccepts
    rw [blockCount_one hn hle, Nat.mod_one, Nat.mod_one]
  rw [mcmcNext_one hn hper hle, e] at h1 ⊢
  obtain ⟨h2, h3⟩ := mcmc_moves hn hf hs hper hle
  exact average_every_pairs (measurable_blockStep hf scale hper 0) h2 h3 (measurable_mcmcAccepts hf scale hper 0) h1 x

/-- The same for 'hmc', under the conditions of `C96_hmc_kernel_partial`. -/
theorem C107_hmc_kernel_partial {n : Nat} (hn : 0 < n) {f : Vec ℝ n → ℝ} (hf : Measurable f)
    (hint : ∫⁻ x, ENNReal.ofReal (Real.exp (-f x)) ≠ ∞) {γ : Vec ℝ n → Vec ℝ n} (hγ : Measurable γ) {ε : Vec ℝ n}
    (hε : ∀ c, ε c ≠ 0) {κ e : ℝ} (hκ : 0 ≤ κ) (he0 : 0 ≤ e) (he : ∀ c, |ε c| ≤ e)
    (hl : ∀ x y, ‖γ x - γ y‖ ≤ κ * ‖x - y‖) {L : Nat} (hL : 1 ≤ L) (hshort : (L * e) ^ 2 * κ ≤ 1) (x : Vec ℝ n) :
    ∀ᵐ ω ∂(inputs ((gauss n).prod unifLaw)),
      Tendsto (fun m : Nat => (∑ k ∈ Finset.range m,
        hmcAccepts f γ ε L (chain (fun _ => hamiltonianStep f γ ε L) x ω k) (ω k)) / m) atTop (𝓝 (hamiltonianRate f γ ε L)) := by
  have hw : Measurable fun x => Real.exp (-f x) := Real.measurable_exp.comp hf.neg
  have := normalized_prob hw (fun x => Real.exp_pos _) hint
  refine average_every_pairs (measurable_hamiltonianStep hf hγ ε L)
    (fun x N hN => hamiltonian_jump hκ hl he hε hL hshort he0 x hN) (hmc_moves hn hε hκ he0 he hl hL hshort)
    (measurable_hmcAccepts hf hγ ε L) ?_ x
  have h := rounds_average_pairs (P := (gauss n).prod unifLaw) hw
    (fun x => Real.exp_pos _) hint (l := [hamiltonianStep f γ ε L]) Nat.one_pos ?_ ?_ (next := fun _ => hamiltonianStep f γ ε L) ?_ ?_
    (h := fun _ => hmcAccepts f γ ε L) (fun _ => measurable_hmcAccepts hf hγ ε L) (fun _ _ _ => rfl)
    (fun k => integrable_of_indicator (measurable_hmcAccepts hf hγ ε L) fun e => acceptIndicator_abs _ _)
  · have hlim : ∫ e, hmcAccepts f γ ε L e.1 e.2 ∂((normalized fun x => Real.exp (-f x)).prod ((gauss n).prod unifLaw)) =
        hamiltonianRate f γ ε L := by
      rw [integral_prod _ (integrable_of_indicator (measurable_hmcAccepts hf hγ ε L) fun e => acceptIndicator_abs _ _)]
      simp only [hmcAccepts_integral hf hγ]
      rw [normalized_integral hw fun x => Real.exp_pos _]
      rfl
    simp only [List.length_singleton, Finset.sum_range_one, Nat.cast_one, div_one, hlim] at h
    exact h
  · intro next h
    rw [List.mem_singleton.1 h]
    exact measurable_hamiltonianStep hf hγ ε L
  · intro next h
    rw [List.mem_singleton.1 h]
    exact hamiltonian_balance hf hγ ε L
  · intro k i h
    obtain rfl : i = 0 := by simpa using h
    rfl
  · intro B hB hv x
    exact hmc_reach hf hγ hε hκ he0 he hl hL hshort hB hv x

/-! ## Runs -/

/-- The number of accepted moves as a sum. -/
theorem accepted_sum {X : Type} : ∀ (ms : List (Move X)) {a : Nat → ℝ},
    (∀ k m, ms[k]? = some m → a k = if m.accepted = true then 1 else 0) → (accepted ms : ℝ) = ∑ k ∈ Finset.range ms.length, a k
  | [], _, _ => by simp [accepted]
  | m :: ms, a, h => by
    have ih := accepted_sum ms (a := fun k => a (k + 1)) fun k m' hk => h (k + 1) m' (by simpa using hk)
    rw [List.length_cons, Finset.sum_range_succ', ← ih, h 0 m rfl]
    unfold accepted
    rw [List.filter_cons]
    split_ifs with hm
    · rw [List.length_cons]; push_cast; rfl
    · rw [add_zero]

/-- Dropping the last term changes an average of numbers between -1 and 1 by little. -/
theorem average_pred {a : Nat → ℝ} (ha : ∀ k, |a k| ≤ 1) {c : ℝ}
    (h : Tendsto (fun m : Nat => (∑ k ∈ Finset.range m, a k) / m) atTop (𝓝 c)) :
    Tendsto (fun m : Nat => (∑ k ∈ Finset.range (m - 1), a k) / m) atTop (𝓝 c) := by
  have h0 : Tendsto (fun m : Nat => (∑ k ∈ Finset.range (m - 1), a k) / m - (∑ k ∈ Finset.range m, a k) / m) atTop (𝓝 0) := by
    rw [tendsto_zero_iff_abs_tendsto_zero]
    refine tendsto_of_tendsto_of_tendsto_of_le_of_le' tendsto_const_nhds (tendsto_one_div_atTop_nhds_zero_nat (𝕜 := ℝ))
      (Eventually.of_forall fun m => abs_nonneg _) ?_
    filter_upwards [eventually_gt_atTop 0] with m hm
    obtain ⟨m, rfl⟩ : ∃ j, m = j + 1 := ⟨m - 1, by omega⟩
    simp only [Function.comp_apply]
    rw [Nat.add_sub_cancel, ← sub_div, Finset.sum_range_succ, sub_add_cancel_left, abs_div, abs_neg, Nat.abs_cast]
    exact div_le_div_of_nonneg_right (ha m) (Nat.cast_nonneg _)
  have := h0.add h
  rw [zero_add] at this
  exact this.congr fun m => sub_add_cancel _ _

section Runs
variable {σ : Type} {R : Rng σ ℝ} {fuel : Nat} {g : σ}

/-- The moves of a run of 'mcmc'. -/
theorem mcmc_moves_chain (hR : R.Ok) {a : MCMC.Args ℝ} {fn : Vec (Val ℝ) a.ndim → Val ℝ} {φ : Vec ℝ a.ndim → ℝ}
    (hφ : ∀ x, fn (point x) = .fin (φ x)) (hc : a.constraints ≠ some "Reject") {xs : List (Vec (Val ℝ) a.ndim)}
    {ms : List (Move (Vec (Val ℝ) a.ndim))} (hrun : McmcRun R a g fn xs ms) {q : Vec ℝ a.ndim}
    (hq : ∀ x, FirstSample R a.toArgs g x → x = point q) : ∀ k m, ms[k]? = some m →
      let ω := numbers R (blockSize a.perc a.ndim) (genStart R a.toArgs g)
      let y := chain (mcmcNext φ (scaleOf a.toArgs) (blockSize_pos a.perc a.ndim)) q ω
      m.old = point (y k) ∧ m.next = point (y (k + 1)) ∧
        mcmcAccepts φ (scaleOf a.toArgs) (blockSize_pos a.perc a.ndim) k (y k) (ω k) = if m.accepted = true then 1 else 0 := by
  have hdec : (!decide (a.constraints = some "Reject")) = true := by simpa using hc
  have hmove : ∀ k m q, ms[k]? = some m → m.old = point q →
      let ω := numbers R (blockSize a.perc a.ndim) (genStart R a.toArgs g)
      m.next = point (mcmcNext φ (scaleOf a.toArgs) (blockSize_pos a.perc a.ndim) k q (ω k)) ∧
        mcmcAccepts φ (scaleOf a.toArgs) (blockSize_pos a.perc a.ndim) k q (ω k) = if m.accepted = true then 1 else 0 := by
    intro k m q hk hq ω
    have hp := hrun.proposal k m hk
    have ht := hrun.test k m hk
    rw [hdec] at hp ht
    set per := blockSize a.perc a.ndim with hper
    set gk := genAt R per true (genStart R a.toArgs g) k with hgk
    have hprop : m.prop = point (blockMove (scaleOf a.toArgs) per (k % blockCount a.ndim per) q
        fun c => normal R gk (c.val % per)) := by
      funext c
      rw [hp c, hq]
      show (if _ then point q c + _ else point q c) = Val.fin (if _ then _ else _)
      split_ifs
      · exact Val.fin_add _ _
      · rfl
    rw [hq, hprop, hφ, hφ, ← metropolis_iff (by exact hR.rand_nonneg _) (by exact hR.rand_lt_one _)] at ht
    have ht' : m.accepted = true ↔ metropolis (Val.fin (φ q) -
        Val.fin (φ (blockMove (scaleOf a.toArgs) per (k % blockCount a.ndim per) q fun c => normal R gk (c.val % per))))
        (uniform R gk per) = true := ⟨fun h => (ht.1 h).2, fun h => ht.2 ⟨hc, h⟩⟩
    constructor
    · show m.next = point (walkStep φ (scaleOf a.toArgs) per (k % blockCount a.ndim per) q
          (fun c => normal R gk (c.val % per), uniform R gk per))
      unfold Move.next walkStep
      dsimp only
      by_cases hacc : m.accepted = true
      · rw [if_pos hacc, if_pos (ht'.1 hacc), hprop]
      · rw [if_neg hacc, if_neg (fun hm => hacc (ht'.2 hm)), hq]
    · show (if metropolis (Val.fin (φ q - φ (blockMove (scaleOf a.toArgs) per (k % blockCount a.ndim per) q
        fun c => normal R gk (c.val % per)))) (uniform R gk per) = true then (1 : ℝ) else 0) = _
      rw [Val.fin_sub] at ht'
      exact if_congr ht'.symm rfl rfl
  intro k
  induction k with
  | zero =>
    intro m hk ω y
    have hold : m.old = point q := hq _ (hrun.first _ (hrun.links.2 0 m hk).1)
    exact ⟨hold, hmove 0 m q hk hold⟩
  | succ k ih =>
    intro m hk ω y
    have hlt : k < ms.length := by
      obtain ⟨h, -⟩ := List.getElem?_eq_some_iff.1 hk
      omega
    have hmk : ms[k]? = some ms[k] := List.getElem?_eq_getElem hlt
    have h1 := (hrun.links.2 k _ hmk).2
    have h2 := (hrun.links.2 (k + 1) m hk).1
    have hold : m.old = point (y (k + 1)) := by
      rw [← (ih _ hmk).2.1]
      exact Option.some.inj (h2.symm.trans h1)
    exact ⟨hold, hmove (k + 1) m _ hk hold⟩

/-- From chains to runs. -/
theorem mcmc_run_rate (hR : R.Ok) {a : MCMC.Args ℝ}
    {fn : Vec (Val ℝ) a.ndim → Val ℝ} (hfn : a.fn = some fn) {φ : Vec ℝ a.ndim → ℝ} (hφ : ∀ x, fn (point x) = .fin (φ x))
    (hc : a.constraints ≠ some "Reject") {c : ℝ} {q : Vec ℝ a.ndim} (hq : ∀ x, FirstSample R a.toArgs g x → x = point q)
    {g' : σ} (hg' : genStart R a.toArgs g = g')
    (hlim : Tendsto (fun m : Nat => (∑ k ∈ Finset.range m,
      mcmcAccepts φ (scaleOf a.toArgs) (blockSize_pos a.perc a.ndim) k
        (chain (mcmcNext φ (scaleOf a.toArgs) (blockSize_pos a.perc a.ndim)) q (numbers R (blockSize a.perc a.ndim) g') k)
        (numbers R (blockSize a.perc a.ndim) g' k)) / m) atTop (𝓝 c)) :
    ∀ ε > 0, ∃ N : Nat, ∀ (m fuel : Nat) (o : Sampling.Output σ ℝ a.ndim), N ≤ m →
      (MCMC.sample R fuel { a with maxiter := m } g).1 = .ok o → |o.acceptRatio - c| < ε := by
  intro ε hε
  have hlim' := average_pred (fun k => acceptIndicator_abs _ _) hlim
  obtain ⟨N, hN⟩ := eventually_atTop.1 ((Metric.tendsto_nhds.1 hlim') ε hε)
  refine ⟨N, fun m fuel o hm ho => ?_⟩
  obtain ⟨⟨xs, ms, hrun, -, hr⟩, -⟩ := C56_mcmc hR (a := { a with maxiter := m }) hfn ho
  have hlen : ms.length = m - 1 := by
    have h1 := hrun.links.1
    have h2 : (xs.length : Int) = m := hrun.length
    omega
  have hmoves := mcmc_moves_chain hR (a := { a with maxiter := m }) hφ hc hrun hq
  rw [accepted_sum ms fun k m' hk => (hmoves k m' hk).2.2, hlen] at hr
  have := hN m hm
  rw [Real.dist_eq] at this
  subst hg'
  rw [hr]
  show |_ / (((m : Int) : ℝ)) - c| < ε
  rw [Int.cast_natCast]
  exact this

/-- 'mcmc' without constraints and with a random first sample, drawn like everything else from an ideal generator: with probability
one, `accept_ratio` of a call with sufficiently many iterations is as close as wanted to the mean acceptance probability.
(`a.maxiter` is replaced by `m`.) -/
theorem C107_mcmc [MeasurableSpace σ] {Q : Measure σ} (hQ : Ideal R Q) (hR : R.Ok) {a : MCMC.Args ℝ}
    {fn : Vec (Val ℝ) a.ndim → Val ℝ} (hfn : a.fn = some fn) {φ : Vec ℝ a.ndim → ℝ} (hφ : ∀ x, fn (point x) = .fin (φ x))
    (hm : Measurable φ) (hint : ∫⁻ x, ENNReal.ofReal (Real.exp (-φ x)) ≠ ∞) (hc : a.constraints ≠ some "Reject")
    (hs : ∀ c, scaleOf a.toArgs c ≠ 0) (hn : 0 < a.ndim) (hx0 : a.x0 = none) (hseed : a.seed = none) :
    ∀ᵐ g ∂Q, ∀ ε > 0, ∃ N : Nat, ∀ (m fuel : Nat) (o : Sampling.Output σ ℝ a.ndim), N ≤ m →
      (MCMC.sample R fuel { a with maxiter := m } g).1 = .ok o →
      |o.acceptRatio - walkRate φ (scaleOf a.toArgs) (blockSize a.perc a.ndim)| < ε := by
  have h1 := C107_mcmc_kernel hn hm hint hs (blockSize_pos a.perc a.ndim)
  have hd : ∀ c : Fin a.ndim, a.bounds.get [c, 1] - a.bounds.get [c, 0] ≠ 0 := by
    intro c hc
    refine hs c ?_
    unfold scaleOf
    rw [hc, zero_div, mul_zero]
  have h2 := box_ae (fun j : Fin a.ndim => a.bounds.get [j, 0]) (fun j => a.bounds.get [j, 1] - a.bounds.get [j, 0]) hd h1
  have hmb : Measurable (boxPoint a.toArgs) :=
    measurable_pi_lambda _ fun j => ((measurable_pi_apply j).const_mul _).const_add _
  have hmn : ∀ k, Measurable fun e : Vec ℝ a.ndim × (Vec ℝ (blockSize a.perc a.ndim) × ℝ) =>
      mcmcNext φ (scaleOf a.toArgs) (blockSize_pos a.perc a.ndim) k e.1 e.2 := fun k =>
    measurable_blockStep hm (scaleOf a.toArgs) (blockSize_pos a.perc a.ndim) _
  have h3 : ∀ᵐ z ∂((Measure.pi fun _ : Fin a.ndim => unifLaw).prod (inputs ((gauss (blockSize a.perc a.ndim)).prod unifLaw))),
      Tendsto (fun m : Nat => (∑ k ∈ Finset.range m,
        mcmcAccepts φ (scaleOf a.toArgs) (blockSize_pos a.perc a.ndim) k
          (chain (mcmcNext φ (scaleOf a.toArgs) (blockSize_pos a.perc a.ndim)) (boxPoint a.toArgs z.1) z.2 k) (z.2 k)) / m) atTop
        (𝓝 (walkRate φ (scaleOf a.toArgs) (blockSize a.perc a.ndim))) := by
    have hmm : ∀ m : Nat, Measurable fun z : Vec ℝ a.ndim × (Nat → Vec ℝ (blockSize a.perc a.ndim) × ℝ) => (∑ k ∈ Finset.range m,
        mcmcAccepts φ (scaleOf a.toArgs) (blockSize_pos a.perc a.ndim) k
          (chain (mcmcNext φ (scaleOf a.toArgs) (blockSize_pos a.perc a.ndim)) (boxPoint a.toArgs z.1) z.2 k) (z.2 k)) / m := fun m =>
      (Finset.measurable_sum _ fun k _ => (measurable_mcmcAccepts hm (scaleOf a.toArgs) (blockSize_pos a.perc a.ndim) k).comp
        (((measurable_chain hmn k).comp ((hmb.comp measurable_fst).prodMk measurable_snd)).prodMk
          ((measurable_pi_apply k).comp measurable_snd))).div_const _
    exact (Measure.ae_prod_iff_ae_ae (measurableSet_tendsto _ hmm)).2 h2
  obtain ⟨hmeas, hlaw⟩ := hQ.start a.ndim (blockSize a.perc a.ndim)
  rw [← hlaw] at h3
  refine (ae_of_ae_map hmeas.aemeasurable h3).mono fun g hg => ?_
  refine mcmc_run_rate hR hfn hφ hc (q := boxPoint a.toArgs (drawVec R.rand a.ndim g).1) (fun x hx => ?_) ?_ hg
  · unfold FirstSample at hx
    simp only [hx0, hseed] at hx
    rw [hx]
    rfl
  · unfold genStart
    simp only [hx0, hseed]

/-- The same for almost every given first sample. -/
theorem C107_mcmc_x0 [MeasurableSpace σ] {Q : Measure σ} (hQ : Ideal R Q) (hR : R.Ok) {a : MCMC.Args ℝ}
    {fn : Vec (Val ℝ) a.ndim → Val ℝ} (hfn : a.fn = some fn) {φ : Vec ℝ a.ndim → ℝ} (hφ : ∀ x, fn (point x) = .fin (φ x))
    (hm : Measurable φ) (hint : ∫⁻ x, ENNReal.ofReal (Real.exp (-φ x)) ≠ ∞) (hc : a.constraints ≠ some "Reject")
    (hs : ∀ c, scaleOf a.toArgs c ≠ 0) (hn : 0 < a.ndim) (hseed : a.seed = none) :
    ∀ᵐ x : Vec ℝ a.ndim, ∀ᵐ g ∂Q, ∀ ε > 0, ∃ N : Nat, ∀ (m fuel : Nat) (o : Sampling.Output σ ℝ a.ndim), N ≤ m →
      (MCMC.sample R fuel { a with maxiter := m, x0 := some (asArray x) } g).1 = .ok o →
      |o.acceptRatio - walkRate φ (scaleOf a.toArgs) (blockSize a.perc a.ndim)| < ε := by
  refine (C107_mcmc_kernel hn hm hint hs (blockSize_pos a.perc a.ndim)).mono fun x hx => ?_
  obtain ⟨hmeas, hlaw⟩ := hQ.numbers (blockSize a.perc a.ndim)
  rw [← hlaw] at hx
  refine (ae_of_ae_map hmeas.aemeasurable hx).mono fun g hg => ?_
  refine mcmc_run_rate hR (a := { a with x0 := some (asArray x) }) hfn hφ hc (q := x) (fun y hy => ?_) ?_ hg
  · rw [hy rfl]
    funext j
    show Val.fin (if h : j.val < a.ndim then x ⟨j.val, h⟩ else 0) = Val.fin (x j)
    rw [dif_pos j.isLt]
  · unfold genStart
    simp only [hseed]

/-- With the default `perc=1` the same for every given first sample. -/
theorem C107_mcmc_start [MeasurableSpace σ] {Q : Measure σ} (hQ : Ideal R Q) (hR : R.Ok) {a : MCMC.Args ℝ}
    {fn : Vec (Val ℝ) a.ndim → Val ℝ} (hfn : a.fn = some fn) {φ : Vec ℝ a.ndim → ℝ} (hφ : ∀ x, fn (point x) = .fin (φ x))
    (hm : Measurable φ) (hint : ∫⁻ x, ENNReal.ofReal (Real.exp (-φ x)) ≠ ∞) (hc : a.constraints ≠ some "Reject")
    (hs : ∀ c, scaleOf a.toArgs c ≠ 0) (hn : 0 < a.ndim) (hp : a.perc = 1) {x : NdArr ℝ} (hx0 : a.x0 = some x)
    (hshape : x.shape = [a.ndim]) (hseed : a.seed = none) :
    ∀ᵐ g ∂Q, ∀ ε > 0, ∃ N : Nat, ∀ (m fuel : Nat) (o : Sampling.Output σ ℝ a.ndim), N ≤ m →
      (MCMC.sample R fuel { a with maxiter := m } g).1 = .ok o →
      |o.acceptRatio - walkRate φ (scaleOf a.toArgs) (blockSize a.perc a.ndim)| < ε := by
  have hb : a.ndim ≤ blockSize a.perc a.ndim := by
    unfold blockSize
    rw [hp, one_mul, Nat.floor_natCast]
    omega
  have h1 := C107_mcmc_kernel_start hn hm hint hs (blockSize_pos a.perc a.ndim) hb fun j => x.get [j]
  obtain ⟨hmeas, hlaw⟩ := hQ.numbers (blockSize a.perc a.ndim)
  rw [← hlaw] at h1
  refine (ae_of_ae_map hmeas.aemeasurable h1).mono fun g hg => ?_
  refine mcmc_run_rate hR hfn hφ hc (q := fun j => x.get [j]) (fun y hy => ?_) ?_ hg
  · unfold FirstSample at hy
    simp only [hx0] at hy
    rw [hy hshape]
    rfl
  · unfold genStart
    simp only [hx0, hseed]

/-! ## 'hmc' -/

/-- The moves of a run of 'hmc'. -/
theorem hmc_moves_chain (hR : R.Ok) {a : HMC.Args ℝ} {φ : Vec ℝ a.ndim → ℝ} (hc : a.constraints ≠ some "Reject") {L : Nat}
    {qs : List (Vec ℝ a.ndim)} {ms : List (Move (Vec ℝ a.ndim))} (hrun : HmcRun R a g φ L qs ms) {q : Vec ℝ a.ndim}
    (hq : ∀ x, FirstSample R a.toArgs g x → x = point q) : ∀ k m, ms[k]? = some m →
      let ω := numbers R a.ndim (genStart R a.toArgs g)
      let γ := centralGradient φ a.fdStep
      let y := chain (fun _ => hamiltonianStep φ γ (scaleOf a.toArgs) L) q ω
      m.old = y k ∧ m.next = y (k + 1) ∧
        hmcAccepts φ γ (scaleOf a.toArgs) L (y k) (ω k) = if m.accepted = true then 1 else 0 := by
  have hdec : (!decide (a.constraints = some "Reject")) = true := by simpa using hc
  have hinj : Function.Injective (point : Vec ℝ a.ndim → Vec (Val ℝ) a.ndim) := by
    intro u v huv
    funext j
    exact Val.fin.inj (congrFun huv j)
  have hmove : ∀ k m, ms[k]? = some m →
      let ω := numbers R a.ndim (genStart R a.toArgs g)
      m.next = hamiltonianStep φ (centralGradient φ a.fdStep) (scaleOf a.toArgs) L m.old (ω k) ∧
        hmcAccepts φ (centralGradient φ a.fdStep) (scaleOf a.toArgs) L m.old (ω k) = if m.accepted = true then 1 else 0 := by
    intro k m hk ω
    obtain ⟨hp, ht⟩ := hrun.proposal k m hk
    rw [hdec] at hp ht
    rw [← metropolis_iff (by exact hR.rand_nonneg _) (by exact hR.rand_lt_one _)] at ht
    set gk := genAt R a.ndim true (genStart R a.toArgs g) k with hgk
    set z := (verlet (centralGradient φ a.fdStep) (scaleOf a.toArgs))^[L] (m.old, fun j => normal R gk j) with hz
    have ht' : m.accepted = true ↔ metropolis (Val.fin (hamiltonian φ (m.old, fun j => normal R gk j) - hamiltonian φ z))
        (uniform R gk a.ndim) = true := ⟨fun h => (ht.1 h).2, fun h => ht.2 ⟨hc, h⟩⟩
    constructor
    · show m.next = if metropolis (Val.fin (hamiltonian φ (m.old, fun j => normal R gk j) - hamiltonian φ z))
        (uniform R gk a.ndim) = true then z.1 else m.old
      unfold Move.next
      by_cases hacc : m.accepted = true
      · rw [if_pos hacc, if_pos (ht'.1 hacc), hp]
      · rw [if_neg hacc, if_neg (fun hm => hacc (ht'.2 hm))]
    · exact if_congr ht'.symm rfl rfl
  intro k
  induction k with
  | zero =>
    intro m hk ω γ y
    have hold : m.old = q := hinj (hq _ (hrun.first _ (hrun.links.2 0 m hk).1))
    have := hmove 0 m hk
    rw [hold] at this
    exact ⟨hold, this⟩
  | succ k ih =>
    intro m hk ω γ y
    have hlt : k < ms.length := by
      obtain ⟨h, -⟩ := List.getElem?_eq_some_iff.1 hk
      omega
    have hmk : ms[k]? = some ms[k] := List.getElem?_eq_getElem hlt
    have h1 := (hrun.links.2 k _ hmk).2
    have h2 := (hrun.links.2 (k + 1) m hk).1
    have hold : m.old = y (k + 1) := (Option.some.inj (h2.symm.trans h1)).trans (ih _ hmk).2.1
    have := hmove (k + 1) m hk
    rw [hold] at this
    exact ⟨hold, this⟩

theorem hmc_run_rate (hR : R.Ok) {a : HMC.Args ℝ}
    {fn : Vec (Val ℝ) a.ndim → Val ℝ} (hfn : a.fn = some fn) {φ : Vec ℝ a.ndim → ℝ} (hφ : ∀ x, fn (point x) = .fin (φ x))
    (hh : a.fdStep ≠ 0) (hj : a.jac = none) (hc : a.constraints ≠ some "Reject") {c : ℝ} {q : Vec ℝ a.ndim}
    (hq : ∀ x, FirstSample R a.toArgs g x → x = point q) {g' : σ} (hg' : genStart R a.toArgs g = g')
    (hlim : Tendsto (fun m : Nat => (∑ k ∈ Finset.range m,
      hmcAccepts φ (centralGradient φ a.fdStep) (scaleOf a.toArgs) (a.nleap.toNat + 1)
        (chain (fun _ => hamiltonianStep φ (centralGradient φ a.fdStep) (scaleOf a.toArgs) (a.nleap.toNat + 1)) q
          (numbers R a.ndim g') k) (numbers R a.ndim g' k)) / m) atTop (𝓝 c)) :
    ∀ ε > 0, ∃ N : Nat, ∀ (m : Nat) (o : Sampling.Output σ ℝ a.ndim), N ≤ m →
      (HMC.sample R { a with maxiter := m } g).1 = .ok o → |o.acceptRatio - c| < ε := by
  intro ε hε
  have hlim' := average_pred (fun k => acceptIndicator_abs _ _) hlim
  obtain ⟨N, hN⟩ := eventually_atTop.1 ((Metric.tendsto_nhds.1 hlim') ε hε)
  refine ⟨N, fun m o hm ho => ?_⟩
  obtain ⟨qs, ms, hrun, -, hr⟩ := (C56_hmc hR (a := { a with maxiter := m }) hfn ho).1 φ hφ hh hj
  have hlen : ms.length = m - 1 := by
    have h1 := hrun.links.1
    have h2 : (qs.length : Int) = m := hrun.length
    omega
  have hmoves := hmc_moves_chain hR (a := { a with maxiter := m }) hc hrun hq
  rw [accepted_sum ms fun k m' hk => (hmoves k m' hk).2.2, hlen] at hr
  have := hN m hm
  rw [Real.dist_eq] at this
  subst hg'
  rw [hr]
  show |_ / (((m : Int) : ℝ)) - c| < ε
  rw [Int.cast_natCast]
  exact this

/-- 'hmc' without constraints and without a gradient function, with a random first sample, under the conditions of
`C96_hmc_kernel_partial` for the finite differences. -/
theorem C107_hmc_partial [MeasurableSpace σ] {Q : Measure σ} (hQ : Ideal R Q) (hR : R.Ok) {a : HMC.Args ℝ}
    {fn : Vec (Val ℝ) a.ndim → Val ℝ} (hfn : a.fn = some fn) {φ : Vec ℝ a.ndim → ℝ} (hφ : ∀ x, fn (point x) = .fin (φ x))
    (hm : Measurable φ) (hint : ∫⁻ x, ENNReal.ofReal (Real.exp (-φ x)) ≠ ∞) (hfd : a.fdStep ≠ 0) (hj : a.jac = none)
    (hc : a.constraints ≠ some "Reject") (hs : ∀ c, scaleOf a.toArgs c ≠ 0) (hn : 0 < a.ndim) {κ e : ℝ} (hκ : 0 ≤ κ) (he0 : 0 ≤ e)
    (he : ∀ c, |scaleOf a.toArgs c| ≤ e)
    (hl : ∀ x y, ‖centralGradient φ a.fdStep x - centralGradient φ a.fdStep y‖ ≤ κ * ‖x - y‖)
    (hshort : (((a.nleap.toNat + 1 : Nat) : ℝ) * e) ^ 2 * κ ≤ 1) (hx0 : a.x0 = none) (hseed : a.seed = none) :
    ∀ᵐ g ∂Q, ∀ ε > 0, ∃ N : Nat, ∀ (m : Nat) (o : Sampling.Output σ ℝ a.ndim), N ≤ m →
      (HMC.sample R { a with maxiter := m } g).1 = .ok o →
      |o.acceptRatio - hamiltonianRate φ (centralGradient φ a.fdStep) (scaleOf a.toArgs) (a.nleap.toNat + 1)| < ε := by
  have hγ := C45_hmc_gradient hm a.fdStep
  set step := hamiltonianStep φ (centralGradient φ a.fdStep) (scaleOf a.toArgs) (a.nleap.toNat + 1) with hstep
  have hmn : Measurable fun e : Vec ℝ a.ndim × (Vec ℝ a.ndim × ℝ) => step e.1 e.2 := measurable_hamiltonianStep hm hγ _ _
  have h1 := C107_hmc_kernel_partial hn hm hint hγ hs hκ he0 he hl (L := a.nleap.toNat + 1) (by omega) hshort
  have hmb : Measurable (boxPoint a.toArgs) :=
    measurable_pi_lambda _ fun j => ((measurable_pi_apply j).const_mul _).const_add _
  have h3 : ∀ᵐ z ∂((Measure.pi fun _ : Fin a.ndim => unifLaw).prod (inputs ((gauss a.ndim).prod unifLaw))),
      Tendsto (fun m : Nat => (∑ k ∈ Finset.range m,
        hmcAccepts φ (centralGradient φ a.fdStep) (scaleOf a.toArgs) (a.nleap.toNat + 1)
          (chain (fun _ => step) (boxPoint a.toArgs z.1) z.2 k) (z.2 k)) / m) atTop
        (𝓝 (hamiltonianRate φ (centralGradient φ a.fdStep) (scaleOf a.toArgs) (a.nleap.toNat + 1))) := by
    have hmm : ∀ m : Nat, Measurable fun z : Vec ℝ a.ndim × (Nat → Vec ℝ a.ndim × ℝ) => (∑ k ∈ Finset.range m,
        hmcAccepts φ (centralGradient φ a.fdStep) (scaleOf a.toArgs) (a.nleap.toNat + 1)
          (chain (fun _ => step) (boxPoint a.toArgs z.1) z.2 k) (z.2 k)) / m := fun m =>
      (Finset.measurable_sum _ fun k _ => (measurable_hmcAccepts hm hγ (scaleOf a.toArgs) (a.nleap.toNat + 1)).comp
        (((measurable_chain (fun _ => hmn) k).comp ((hmb.comp measurable_fst).prodMk measurable_snd)).prodMk
          ((measurable_pi_apply k).comp measurable_snd))).div_const _
    exact (Measure.ae_prod_iff_ae_ae (measurableSet_tendsto _ hmm)).2 (ae_of_all _ fun u => h1 (boxPoint a.toArgs u))
  obtain ⟨hmeas, hlaw⟩ := hQ.start a.ndim a.ndim
  rw [← hlaw] at h3
  refine (ae_of_ae_map hmeas.aemeasurable h3).mono fun g hg => ?_
  refine hmc_run_rate hR hfn hφ hfd hj hc (q := boxPoint a.toArgs (drawVec R.rand a.ndim g).1) (fun x hx => ?_) ?_ hg
  · unfold FirstSample at hx
    simp only [hx0, hseed] at hx
    rw [hx]
    rfl
  · unfold genStart
    simp only [hx0, hseed]

/-- The same for every given first sample. -/
theorem C107_hmc_x0_partial [MeasurableSpace σ] {Q : Measure σ} (hQ : Ideal R Q) (hR : R.Ok) {a : HMC.Args ℝ}
    {fn : Vec (Val ℝ) a.ndim → Val ℝ} (hfn : a.fn = some fn) {φ : Vec ℝ a.ndim → ℝ} (hφ : ∀ x, fn (point x) = .fin (φ x))
    (hm : Measurable φ) (hint : ∫⁻ x, ENNReal.ofReal (Real.exp (-φ x)) ≠ ∞) (hfd : a.fdStep ≠ 0) (hj : a.jac = none)
    (hc : a.constraints ≠ some "Reject") (hs : ∀ c, scaleOf a.toArgs c ≠ 0) (hn : 0 < a.ndim) {κ e : ℝ} (hκ : 0 ≤ κ) (he0 : 0 ≤ e)
    (he : ∀ c, |scaleOf a.toArgs c| ≤ e)
    (hl : ∀ x y, ‖centralGradient φ a.fdStep x - centralGradient φ a.fdStep y‖ ≤ κ * ‖x - y‖)
    (hshort : (((a.nleap.toNat + 1 : Nat) : ℝ) * e) ^ 2 * κ ≤ 1) {x : NdArr ℝ} (hx0 : a.x0 = some x)
    (hshape : x.shape = [a.ndim]) (hseed : a.seed = none) :
    ∀ᵐ g ∂Q, ∀ ε > 0, ∃ N : Nat, ∀ (m : Nat) (o : Sampling.Output σ ℝ a.ndim), N ≤ m →
      (HMC.sample R { a with maxiter := m } g).1 = .ok o →
      |o.acceptRatio - hamiltonianRate φ (centralGradient φ a.fdStep) (scaleOf a.toArgs) (a.nleap.toNat + 1)| < ε := by
  have hγ := C45_hmc_gradient hm a.fdStep
  have h1 := C107_hmc_kernel_partial hn hm hint hγ hs hκ he0 he hl (L := a.nleap.toNat + 1) (by omega) hshort fun j => x.get [j]
  obtain ⟨hmeas, hlaw⟩ := hQ.numbers a.ndim
  rw [← hlaw] at h1
  refine (ae_of_ae_map hmeas.aemeasurable h1).mono fun g hg => ?_
  refine hmc_run_rate hR hfn hφ hfd hj hc (q := fun j => x.get [j]) (fun y hy => ?_) ?_ hg
  · unfold FirstSample at hy
    simp only [hx0] at hy
    rw [hy hshape]
    rfl
  · unfold genStart
    simp only [hx0, hseed]

/-! ## "Reject" -/

/-- With `constraints="Reject"` nothing is ever accepted, and `accept_ratio` is zero however long the run. -/
theorem C107_mcmc_violated (hR : R.Ok) {a : MCMC.Args ℝ} {fn : Vec (Val ℝ) a.ndim → Val ℝ} (hfn : a.fn = some fn)
    (hc : a.constraints = some "Reject") {o : Sampling.Output σ ℝ a.ndim} (h : (MCMC.sample R fuel a g).1 = .ok o) :
    o.acceptRatio = 0 := by
  obtain ⟨⟨xs, ms, hrun, -, hr⟩, -⟩ := C56_mcmc hR hfn h
  rw [hr, accepted_sum ms (a := fun _ => 0) fun k m hk => ?_]
  · simp
  · rw [if_neg fun h => ((hrun.test k m hk).1 h).1 hc]

theorem C107_hmc_violated (hR : R.Ok) {a : HMC.Args ℝ} {fn : Vec (Val ℝ) a.ndim → Val ℝ} (hfn : a.fn = some fn)
    {φ : Vec ℝ a.ndim → ℝ} (hφ : ∀ x, fn (point x) = .fin (φ x)) (hfd : a.fdStep ≠ 0) (hj : a.jac = none)
    (hc : a.constraints = some "Reject") {o : Sampling.Output σ ℝ a.ndim} (h : (HMC.sample R a g).1 = .ok o) :
    o.acceptRatio = 0 := by
  obtain ⟨qs, ms, hrun, -, hr⟩ := (C56_hmc hR hfn h).1 φ hφ hfd hj
  rw [hr, accepted_sum ms (a := fun _ => 0) fun k m hk => ?_]
  · simp
  · rw [if_neg fun h => ((hrun.proposal k m hk).2.1 h).1 hc]

end Runs

/-! ## The limits are positive -/

theorem mean_pos {n : Nat} {w h : Vec ℝ n → ℝ} (hw : Measurable w) (hw0 : ∀ x, 0 < w x) (hfin : ∫⁻ x, ENNReal.ofReal (w x) ≠ ∞)
    (hh : Measurable h) (h0 : ∀ x, 0 < h x) (h1 : ∀ x, h x ≤ 1) : 0 < mean w h ∧ mean w h ≤ 1 := by
  have := normalized_prob hw hw0 hfin
  rw [← normalized_integral hw hw0]
  have hi : Integrable h (normalized w) := integrable_of_indicator hh fun x => abs_le.2 ⟨by linarith [h0 x], h1 x⟩
  constructor
  · rw [integral_pos_iff_support_of_nonneg (fun x => (h0 x).le) hi, show Function.support h = Set.univ from
      Set.eq_univ_of_forall fun x => (h0 x).ne', measure_univ]
    exact one_pos
  · refine (integral_mono hi (integrable_const 1) h1).trans ?_
    simp

theorem min_integral {α : Type} [MeasurableSpace α] {μ : Measure α} [IsProbabilityMeasure μ] {d : α → ℝ} (hd : Measurable d) :
    0 < ∫ z, min 1 (Real.exp (d z)) ∂μ ∧ ∫ z, min 1 (Real.exp (d z)) ∂μ ≤ 1 := by
  have h0 : ∀ z, 0 < min 1 (Real.exp (d z)) := fun z => lt_min one_pos (Real.exp_pos _)
  have hm : Measurable fun z => min 1 (Real.exp (d z)) := measurable_const.min (Real.measurable_exp.comp hd)
  have hi : Integrable (fun z => min 1 (Real.exp (d z))) μ :=
    integrable_of_indicator hm fun z => abs_le.2 ⟨by linarith [h0 z], min_le_left _ _⟩
  constructor
  · rw [integral_pos_iff_support_of_nonneg (fun x => (h0 x).le) hi, show Function.support (fun z => min 1 (Real.exp (d z))) = Set.univ from
      Set.eq_univ_of_forall fun x => (h0 x).ne', measure_univ]
    exact one_pos
  · refine (integral_mono hi (integrable_const 1) fun z => min_le_left _ _).trans ?_
    simp

/-- The mean acceptance probability is positive: a run that accepts a vanishing share of the proposals does not happen. -/
theorem C107_mcmc_rate {n : Nat} (hn : 0 < n) {f : Vec ℝ n → ℝ} (hf : Measurable f)
    (hint : ∫⁻ x, ENNReal.ofReal (Real.exp (-f x)) ≠ ∞) (scale : Vec ℝ n) {per : Nat} (hper : 0 < per) :
    0 < walkRate f scale per ∧ walkRate f scale per ≤ 1 := by
  have hbc : 0 < blockCount n per := by
    unfold blockCount
    exact Nat.div_pos (by omega) hper
  have hbc' : (0 : ℝ) < blockCount n per := by exact_mod_cast hbc
  have hw : Measurable fun x => Real.exp (-f x) := Real.measurable_exp.comp hf.neg
  have hb : ∀ b, 0 < mean (fun x => Real.exp (-f x)) (walkAcceptance f scale per b) ∧
      mean (fun x => Real.exp (-f x)) (walkAcceptance f scale per b) ≤ 1 := by
    intro b
    have hd : Measurable fun e : Vec ℝ n × Vec ℝ n => f e.1 - f (blockMove scale per b e.1 e.2) :=
      (hf.comp measurable_fst).sub (hf.comp (measurable_blockMove scale per b))
    have h1 := fun x => min_integral (μ := gauss n) (hd.comp (measurable_prodMk_left (x := x)))
    refine mean_pos hw (fun x => Real.exp_pos _) hint ?_ (fun x => (h1 x).1) fun x => (h1 x).2
    have hm2 : Measurable fun e : Vec ℝ n × Vec ℝ n => min 1 (Real.exp (f e.1 - f (blockMove scale per b e.1 e.2))) :=
      measurable_const.min (Real.measurable_exp.comp hd)
    exact (hm2.stronglyMeasurable.integral_prod_right' (ν := gauss n)).measurable
  unfold walkRate
  constructor
  · exact div_pos (Finset.sum_pos (fun b _ => (hb b).1) ⟨0, Finset.mem_range.2 hbc⟩) hbc'
  · rw [div_le_one hbc']
    refine (Finset.sum_le_sum fun b _ => (hb b).2).trans ?_
    simp

theorem C107_hmc_rate {n : Nat} {f : Vec ℝ n → ℝ} (hf : Measurable f) (hint : ∫⁻ x, ENNReal.ofReal (Real.exp (-f x)) ≠ ∞)
    {γ : Vec ℝ n → Vec ℝ n} (hγ : Measurable γ) (ε : Vec ℝ n) (L : Nat) :
    0 < hamiltonianRate f γ ε L ∧ hamiltonianRate f γ ε L ≤ 1 := by
  have hw : Measurable fun x => Real.exp (-f x) := Real.measurable_exp.comp hf.neg
  have hd : Measurable fun e : Vec ℝ n × Vec ℝ n => hamiltonian f (e.1, e.2) - hamiltonian f ((verlet γ ε)^[L] (e.1, e.2)) :=
    (measurable_hamiltonian hf).sub ((measurable_hamiltonian hf).comp ((verlet_preserving hγ ε).measurable.iterate L))
  have h1 := fun x => min_integral (μ := gauss n) (hd.comp (measurable_prodMk_left (x := x)))
  refine mean_pos hw (fun x => Real.exp_pos _) hint ?_ (fun x => (h1 x).1) fun x => (h1 x).2
  have hm2 : Measurable fun e : Vec ℝ n × Vec ℝ n =>
      min 1 (Real.exp (hamiltonian f (e.1, e.2) - hamiltonian f ((verlet γ ε)^[L] (e.1, e.2)))) :=
    measurable_const.min (Real.measurable_exp.comp hd)
  exact (hm2.stronglyMeasurable.integral_prod_right' (ν := gauss n)).measurable

/-! ## Concrete cases -/

namespace Concrete

theorem realArgs_value (x : Vec ℝ 2) : Val.fin (x 0 * x 0 + x 1 * x 1) = .fin (∑ j : Fin 2, x j ^ 2) := by
  rw [Fin.sum_univ_two]
  congr 1
  ring

theorem realArgs_scale (c : Fin 2) : scaleOf realArgs.toArgs c ≠ 0 := by
  show (1 / 2 : ℝ) * (((if 1 = 0 then -1 else 1 : ℝ) - (if 0 = 0 then -1 else 1 : ℝ)) / 2) ≠ 0
  norm_num

theorem squares_measurable (n : Nat) : Measurable fun x : Vec ℝ n => ∑ j, x j ^ 2 :=
  Finset.measurable_sum _ fun j _ => (measurable_pi_apply j).pow_const 2

/-- The sum of squares of two variables, `realArgs` (which returns for every number of iterations, see `C96_mcmc`): with probability
one `accept_ratio` tends to a positive number. -/
example : ∃ rate : ℝ, 0 < rate ∧ rate ≤ 1 ∧
    ∀ᵐ g ∂streamLaw, ∀ ε > 0, ∃ N : Nat, ∀ (m fuel : Nat) (o : Sampling.Output (Nat → ℝ × ℝ) ℝ 2), N ≤ m →
      (MCMC.sample streamRng fuel { realArgs with maxiter := m } g).1 = .ok o → |o.acceptRatio - rate| < ε := by
  have h := C107_mcmc_rate (n := 2) (by decide) (squares_measurable 2) (squares_integrable 2) (scaleOf realArgs.toArgs)
    (blockSize_pos realArgs.perc 2)
  exact ⟨_, h.1, h.2, C107_mcmc stream_ideal streamRng_ok (a := realArgs) (φ := fun x : Vec ℝ 2 => ∑ j, x j ^ 2) rfl
    realArgs_value (squares_measurable 2) (squares_integrable 2) (by rintro ⟨⟩) realArgs_scale (by decide) rfl rfl⟩

/-- The call of C101 with short trajectories, from every start. -/
example (x : ℝ) : ∃ rate : ℝ, 0 < rate ∧ rate ≤ 1 ∧
    ∀ᵐ g ∂streamLaw, ∀ ε > 0, ∃ N : Nat, ∀ (m : Nat) (o : Sampling.Output (Nat → ℝ × ℝ) ℝ 1), N ≤ m →
      (HMC.sample streamRng { shortArgs x 0 with maxiter := m } g).1 = .ok o → |o.acceptRatio - rate| < ε := by
  have h := C107_hmc_rate (n := 1) (squares_measurable 1) (squares_integrable 1)
    (C45_hmc_gradient (squares_measurable 1) (shortArgs x 0).fdStep) (scaleOf (shortArgs x 0).toArgs) (4 + 1)
  refine ⟨_, h.1, h.2, C107_hmc_x0_partial stream_ideal streamRng_ok (a := shortArgs x 0) (φ := fun x : Vec ℝ 1 => ∑ j, x j ^ 2) rfl ?_
      (squares_measurable 1) (squares_integrable 1) ?_ rfl (by rintro ⟨⟩) ?_ Nat.one_pos (κ := 2) (e := 1 / 10) zero_le_two (by norm_num)
      ?_ ?_ ?_ rfl rfl rfl⟩
  · intro (z : Vec ℝ 1)
    show Val.fin (z 0) * Val.fin (z 0) = _
    rw [Val.fin_mul, Fin.sum_univ_one, sq]
  · show (1 / 1000 : ℝ) ≠ 0
    norm_num
  · intro c
    show (1 / 10 : ℝ) * (((if 1 = 0 then -1 else 1 : ℝ) - (if 0 = 0 then -1 else 1 : ℝ)) / 2) ≠ 0
    norm_num
  · intro c
    show |(1 / 10 : ℝ) * (((if 1 = 0 then -1 else 1 : ℝ) - (if 0 = 0 then -1 else 1 : ℝ)) / 2)| ≤ 1 / 10
    norm_num
  · intro (x : Vec ℝ 1) (y : Vec ℝ 1)
    show ‖centralGradient (fun x : Vec ℝ 1 => ∑ j, x j ^ 2) (1 / 1000) x -
      centralGradient (fun x : Vec ℝ 1 => ∑ j, x j ^ 2) (1 / 1000) y‖ ≤ 2 * ‖x - y‖
    rw [centralGradient_sq (by norm_num), centralGradient_sq (by norm_num)]
    have : (fun j => 2 * x j) - (fun j => 2 * y j) = (2 : ℝ) • (x - y) := by
      funext j
      show 2 * x j - 2 * y j = 2 * (x j - y j)
      ring
    rw [this, norm_smul]
    norm_num
  · show (((4 + 1 : Nat) : ℝ) * (1 / 10)) ^ 2 * 2 ≤ 1
    norm_num

/-- With "Reject" the same call returns as well, and its ratio is zero: never close to the positive rate. -/
example (g : Nat → ℝ × ℝ) (m : Nat) (hm : 1 ≤ m) :
    ∃ o, (MCMC.sample streamRng m { realArgs with maxiter := m, constraints := some "Reject" } g).1 = .ok o ∧ o.acceptRatio = 0 := by
  obtain ⟨o, ho⟩ := (C49_mcmc_partial (K := ℝ) (R := streamRng) (g := g) (fuel := m)
      (a := { realArgs with maxiter := m, constraints := some "Reject" }) streamRng_ok
      ⟨⟨rfl, rfl, by rintro x ⟨⟩, rfl, by rintro ⟨⟩, by show (1 : Int) ≤ m; omega⟩, ⟨zero_le_one, le_refl _⟩⟩
      (by exact (by decide : 0 < 2)) (le_refl m)).1.2 (Or.inl (by
        show max 1 ⌊(1 : ℝ) * ((2 : Nat) : ℝ)⌋₊ ∣ 2
        rw [one_mul, Nat.floor_natCast]
        decide))
  exact ⟨o, ho, C107_mcmc_violated streamRng_ok rfl rfl ho⟩

end Concrete

end Stochopy
