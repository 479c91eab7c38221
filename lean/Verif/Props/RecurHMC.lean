import Verif.Props.Recur
import Verif.Lemmas.FlatWalk
import Verif.Lemmas.EveryStart

/-!
# C96 for 'hmc', and for objectives without a finite integral
-/

set_option linter.unusedSectionVars false

namespace Stochopy
open Spec Sampling MeasureTheory ProbabilityTheory Filter Concrete
open scoped ENNReal

/-! ## 'hmc' -/

theorem measurable_hamiltonianStep {n : Nat} {f : Vec ℝ n → ℝ} (hf : Measurable f) {γ : Vec ℝ n → Vec ℝ n} (hγ : Measurable γ)
    (ε : Vec ℝ n) (L : Nat) : Measurable fun e : Vec ℝ n × (Vec ℝ n × ℝ) => hamiltonianStep f γ ε L e.1 e.2 := by
  have h0 : Measurable fun e : Vec ℝ n × (Vec ℝ n × ℝ) => (e.1, e.2.1) :=
    measurable_fst.prodMk (measurable_fst.comp measurable_snd)
  have h1 : Measurable fun e : Vec ℝ n × (Vec ℝ n × ℝ) => (verlet γ ε)^[L] (e.1, e.2.1) :=
    ((verlet_preserving hγ ε).measurable.iterate L).comp h0
  have hd : Measurable fun e : Vec ℝ n × (Vec ℝ n × ℝ) =>
      hamiltonian f (e.1, e.2.1) - hamiltonian f ((verlet γ ε)^[L] (e.1, e.2.1)) :=
    ((measurable_hamiltonian hf).comp h0).sub ((measurable_hamiltonian hf).comp h1)
  exact Measurable.ite (measurableSet_metropolis hd (measurable_snd.comp measurable_snd)) (measurable_fst.comp h1) measurable_fst

/-- The hypotheses of the every-start lemmas for 'hmc'. -/
theorem hmc_moves {n : Nat} (hn : 0 < n) {f : Vec ℝ n → ℝ} {γ : Vec ℝ n → Vec ℝ n} {ε : Vec ℝ n}
    (hε : ∀ c, ε c ≠ 0) {κ e : ℝ} (hκ : 0 ≤ κ) (he0 : 0 ≤ e) (he : ∀ c, |ε c| ≤ e)
    (hl : ∀ x y, ‖γ x - γ y‖ ≤ κ * ‖x - y‖) {L : Nat} (hL : 1 ≤ L) (hshort : (L * e) ^ 2 * κ ≤ 1) (x : Vec ℝ n) :
    ((gauss n).prod unifLaw) {ω | hamiltonianStep f γ ε L x ω ≠ x} ≠ 0 := by
  refine hamiltonian_reach hκ hl he hε hL hshort he0 x (B := {x}ᶜ) fun h => ?_
  haveI : Nonempty (Fin n) := ⟨⟨0, hn⟩⟩
  have h1 : (volume : Measure (Vec ℝ n)) {x} = 0 := measure_singleton x
  have h2 : (volume : Measure (Vec ℝ n)) Set.univ = 0 := by
    rw [← Set.union_compl_self {x}]
    exact measure_union_null h1 h
  exact NeZero.ne (volume : Measure (Vec ℝ n)) (Measure.measure_univ_eq_zero.1 h2)

/-- One iteration, in the form used for lists of transitions. -/
theorem hmc_reach {n : Nat} {f : Vec ℝ n → ℝ} (hf : Measurable f) {γ : Vec ℝ n → Vec ℝ n} (hγ : Measurable γ) {ε : Vec ℝ n}
    (hε : ∀ c, ε c ≠ 0) {κ e : ℝ} (hκ : 0 ≤ κ) (he0 : 0 ≤ e) (he : ∀ c, |ε c| ≤ e)
    (hl : ∀ x y, ‖γ x - γ y‖ ≤ κ * ‖x - y‖) {L : Nat} (hL : 1 ≤ L) (hshort : (L * e) ^ 2 * κ ≤ 1) {B : Set (Vec ℝ n)}
    (hB : MeasurableSet B) (hv : volume B ≠ 0) (x : Vec ℝ n) :
    reach ((gauss n).prod unifLaw) B [hamiltonianStep f γ ε L] x ≠ 0 := by
  rw [reach_eq_pi hB _ (fun next h => by
    rw [List.mem_singleton.1 h]
    exact measurable_hamiltonianStep hf hγ ε L)]
  have h1 := hamiltonian_reach (f := f) hκ hl he hε hL hshort he0 x hv
  have h2 := (measurePreserving_eval (fun _ : Fin 1 => (gauss n).prod unifLaw) 0).map_eq
  rw [← h2, Measure.map_apply (measurable_pi_apply 0)
    (((measurable_hamiltonianStep hf hγ ε L).comp measurable_prodMk_left) hB)] at h1
  exact h1

/-- The chain of 'hmc' with independent normal and uniform numbers, when the gradient is Lipschitz continuous with a constant `κ`
and the trajectories are short: `L * ε * sqrt κ ≤ 1`.  From every starting point and with probability one it is infinitely often in any
given set of positive volume. -/
theorem C96_hmc_kernel_partial {n : Nat} (hn : 0 < n) {f : Vec ℝ n → ℝ} (hf : Measurable f)
    (hint : ∫⁻ x, ENNReal.ofReal (Real.exp (-f x)) ≠ ∞) {γ : Vec ℝ n → Vec ℝ n} (hγ : Measurable γ) {ε : Vec ℝ n}
    (hε : ∀ c, ε c ≠ 0) {κ e : ℝ} (hκ : 0 ≤ κ) (he0 : 0 ≤ e) (he : ∀ c, |ε c| ≤ e)
    (hl : ∀ x y, ‖γ x - γ y‖ ≤ κ * ‖x - y‖) {L : Nat} (hL : 1 ≤ L) (hshort : (L * e) ^ 2 * κ ≤ 1) {B : Set (Vec ℝ n)}
    (hB : MeasurableSet B) (hv : 0 < volume B) (x : Vec ℝ n) :
    ∀ᵐ ω ∂(inputs ((gauss n).prod unifLaw)), ∃ᶠ k in atTop, chain (fun _ => hamiltonianStep f γ ε L) x ω k ∈ B := by
  refine often_every (measurable_hamiltonianStep hf hγ ε L)
    (fun x N hN => hamiltonian_jump hκ hl he hε hL hshort he0 x hN) (hmc_moves hn hε hκ he0 he hl hL hshort) hB ?_ x
  refine rounds_recurrent' (P := (gauss n).prod unifLaw) (w := fun x => Real.exp (-f x)) (Real.measurable_exp.comp hf.neg)
    (fun x => Real.exp_pos _) hint (l := [hamiltonianStep f γ ε L]) Nat.one_pos ?_ ?_ ?_ hB ?_
  · intro next h
    rw [List.mem_singleton.1 h]
    exact measurable_hamiltonianStep hf hγ ε L
  · intro next h
    rw [List.mem_singleton.1 h]
    exact hamiltonian_balance hf hγ ε L
  · intro k i h
    obtain rfl : i = 0 := by simpa using h
    rfl
  · intro x
    exact hmc_reach hf hγ hε hκ he0 he hl hL hshort hB hv.ne' x

section Runs
variable {σ : Type} {R : Rng σ ℝ} {fuel : Nat} {g : σ}

/-- The samples of a run are the chain driven by the numbers drawn. -/
theorem hmc_chain (hR : R.Ok) {a : HMC.Args ℝ} {o : Sampling.Output σ ℝ a.ndim}
    {fn : Vec (Val ℝ) a.ndim → Val ℝ} (hfn : a.fn = some fn) {φ : Vec ℝ a.ndim → ℝ} (hφ : ∀ x, fn (point x) = .fin (φ x))
    (hh : a.fdStep ≠ 0) (hj : a.jac = none) (hc : a.constraints ≠ some "Reject") (hall : a.returnAll = true)
    (h : (HMC.sample R a g).1 = .ok o) {q : Vec ℝ a.ndim} (hq : ∀ x, FirstSample R a.toArgs g x → x = point q) :
    ∃ qs : List (Vec ℝ a.ndim), o.xall = some (qs.map point) ∧ (qs.length : Int) = a.maxiter ∧ ∀ k : Nat, (k : Int) < a.maxiter →
      qs[k]? = some (chain (fun _ => hamiltonianStep φ (centralGradient φ a.fdStep) (scaleOf a.toArgs) (a.nleap.toNat + 1)) q
        (numbers R a.ndim (genStart R a.toArgs g)) k) := by
  obtain ⟨qs, ms, hrun, hx, -⟩ := HMC.finite_run hR hfn hφ hh hj h
  obtain ⟨qs', hx', h2', h3'⟩ := C45_hmc hR hfn hφ hh hj hc h
  have hinj : Function.Injective (point : Vec ℝ a.ndim → Vec (Val ℝ) a.ndim) := by
    intro u v huv
    funext j
    exact Val.fin.inj (congrFun huv j)
  obtain rfl : qs' = qs := (List.map_injective_iff.2 hinj) (Option.some.inj ((hx' hall).symm.trans (hx hall)))
  have hlen : (qs'.length : Int) = a.maxiter := hrun.length
  refine ⟨qs', hx hall, hlen, fun k => ?_⟩
  induction k with
  | zero =>
    intro hk
    have hget : qs'[0]? = some qs'[0] := List.getElem?_eq_getElem (show 0 < qs'.length by omega)
    rw [hget]
    exact congrArg some (hinj (hq _ (hrun.first _ hget)))
  | succ k ih =>
    intro hk
    have hget : qs'[k + 1]? = some qs'[k + 1] := List.getElem?_eq_getElem (show k + 1 < qs'.length by omega)
    have h4 := h3' k _ _ (ih (by omega)) hget
    rw [hget, h4]
    rfl

/-- 'hmc' without constraints and without a gradient function, with a random first sample, under the conditions of
`C96_hmc_kernel_partial` for the finite differences. -/
theorem C96_hmc_partial [MeasurableSpace σ] {Q : Measure σ} (hQ : Ideal R Q) (hR : R.Ok) {a : HMC.Args ℝ}
    {fn : Vec (Val ℝ) a.ndim → Val ℝ} (hfn : a.fn = some fn) {φ : Vec ℝ a.ndim → ℝ} (hφ : ∀ x, fn (point x) = .fin (φ x))
    (hm : Measurable φ) (hint : ∫⁻ x, ENNReal.ofReal (Real.exp (-φ x)) ≠ ∞) (hh : a.fdStep ≠ 0) (hj : a.jac = none)
    (hc : a.constraints ≠ some "Reject") (hs : ∀ c, scaleOf a.toArgs c ≠ 0) (hn : 0 < a.ndim) {κ e : ℝ} (hκ : 0 ≤ κ) (he0 : 0 ≤ e)
    (he : ∀ c, |scaleOf a.toArgs c| ≤ e)
    (hl : ∀ x y, ‖centralGradient φ a.fdStep x - centralGradient φ a.fdStep y‖ ≤ κ * ‖x - y‖)
    (hshort : (((a.nleap.toNat + 1 : Nat) : ℝ) * e) ^ 2 * κ ≤ 1) (hx0 : a.x0 = none) (hseed : a.seed = none)
    (hall : a.returnAll = true) {B : Set (Vec ℝ a.ndim)} (hB : MeasurableSet B) (hv : 0 < volume B) :
    ∀ᵐ g ∂Q, ∀ visits : Nat, ∃ N : Nat, ∀ (m : Nat) (o : Sampling.Output σ ℝ a.ndim), N ≤ m →
      (HMC.sample R { a with maxiter := m } g).1 = .ok o →
      ∃ xs, o.xall = some xs ∧ ∃ ks : Finset Nat, ks.card = visits ∧ ∀ k ∈ ks, ∃ q ∈ B, xs[k]? = some (point q) := by
  have hγ := C45_hmc_gradient hm a.fdStep
  set step := hamiltonianStep φ (centralGradient φ a.fdStep) (scaleOf a.toArgs) (a.nleap.toNat + 1) with hstep
  have hmn : Measurable fun e : Vec ℝ a.ndim × (Vec ℝ a.ndim × ℝ) => step e.1 e.2 := measurable_hamiltonianStep hm hγ _ _
  have h1 := C96_hmc_kernel_partial hn hm hint hγ hs hκ he0 he hl (L := a.nleap.toNat + 1) (by omega) hshort hB hv
  have hmb : Measurable (boxPoint a.toArgs) :=
    measurable_pi_lambda _ fun j => ((measurable_pi_apply j).const_mul _).const_add _
  have h3 : ∀ᵐ z ∂((Measure.pi fun _ : Fin a.ndim => unifLaw).prod (inputs ((gauss a.ndim).prod unifLaw))),
      ∃ᶠ k in atTop, chain (fun _ => step) (boxPoint a.toArgs z.1) z.2 k ∈ B := by
    have hms : MeasurableSet {z : Vec ℝ a.ndim × (Nat → Vec ℝ a.ndim × ℝ) |
        ∃ᶠ k in atTop, chain (fun _ => step) (boxPoint a.toArgs z.1) z.2 k ∈ B} :=
      ((hmb.comp measurable_fst).prodMk measurable_snd) (measurable_visits (fun _ => hmn) hB)
    exact (Measure.ae_prod_iff_ae_ae hms).2 (ae_of_all _ fun u => h1 (boxPoint a.toArgs u))
  obtain ⟨hmeas, hlaw⟩ := hQ.start a.ndim a.ndim
  rw [← hlaw] at h3
  refine (ae_of_ae_map hmeas.aemeasurable h3).mono fun g hg visits => ?_
  obtain ⟨N, ks, hcard, hks⟩ := enough_visits hg visits
  refine ⟨N, fun m o hNm h => ?_⟩
  have hg' : genStart R { a.toArgs with maxiter := m } g = (fun g => (R.rand g).2)^[a.ndim] g := by
    unfold genStart
    simp only [hx0, hseed]
  obtain ⟨qs, hx, -, hch⟩ := hmc_chain hR (a := { a with maxiter := m }) hfn hφ hh hj hc hall h
    (q := boxPoint a.toArgs (drawVec R.rand a.ndim g).1) (by
      intro x hx
      unfold FirstSample at hx
      simp only [hx0, hseed] at hx
      rw [hx]
      rfl)
  refine ⟨qs.map point, hx, ks, hcard, fun k hk => ⟨_, (hks k hk).2, ?_⟩⟩
  have hkm : k < m := lt_of_lt_of_le (hks k hk).1 hNm
  rw [List.getElem?_map, hch k (by show (k : Int) < m; omega)]
  show some (point (chain _ _ (numbers R _ (genStart R { a.toArgs with maxiter := m } g)) k)) = _
  rw [hg']
  rfl

/-- The same for every given first sample. -/
theorem C96_hmc_x0_partial [MeasurableSpace σ] {Q : Measure σ} (hQ : Ideal R Q) (hR : R.Ok) {a : HMC.Args ℝ}
    {fn : Vec (Val ℝ) a.ndim → Val ℝ} (hfn : a.fn = some fn) {φ : Vec ℝ a.ndim → ℝ} (hφ : ∀ x, fn (point x) = .fin (φ x))
    (hm : Measurable φ) (hint : ∫⁻ x, ENNReal.ofReal (Real.exp (-φ x)) ≠ ∞) (hh : a.fdStep ≠ 0) (hj : a.jac = none)
    (hc : a.constraints ≠ some "Reject") (hs : ∀ c, scaleOf a.toArgs c ≠ 0) (hn : 0 < a.ndim) {κ e : ℝ} (hκ : 0 ≤ κ) (he0 : 0 ≤ e)
    (he : ∀ c, |scaleOf a.toArgs c| ≤ e)
    (hl : ∀ x y, ‖centralGradient φ a.fdStep x - centralGradient φ a.fdStep y‖ ≤ κ * ‖x - y‖)
    (hshort : (((a.nleap.toNat + 1 : Nat) : ℝ) * e) ^ 2 * κ ≤ 1) {x : NdArr ℝ} (hx0 : a.x0 = some x)
    (hshape : x.shape = [a.ndim]) (hseed : a.seed = none) (hall : a.returnAll = true) {B : Set (Vec ℝ a.ndim)} (hB : MeasurableSet B) (hv : 0 < volume B) :
    ∀ᵐ g ∂Q, ∀ visits : Nat, ∃ N : Nat, ∀ (m : Nat) (o : Sampling.Output σ ℝ a.ndim), N ≤ m →
      (HMC.sample R { a with maxiter := m } g).1 = .ok o →
      ∃ xs, o.xall = some xs ∧ ∃ ks : Finset Nat, ks.card = visits ∧ ∀ k ∈ ks, ∃ q ∈ B, xs[k]? = some (point q) := by
  have hγ := C45_hmc_gradient hm a.fdStep
  have h1 := C96_hmc_kernel_partial hn hm hint hγ hs hκ he0 he hl (L := a.nleap.toNat + 1) (by omega) hshort hB hv
    fun j => x.get [j]
  obtain ⟨hmeas, hlaw⟩ := hQ.numbers a.ndim
  rw [← hlaw] at h1
  refine (ae_of_ae_map hmeas.aemeasurable h1).mono fun g hg visits => ?_
  obtain ⟨N, ks, hcard, hks⟩ := enough_visits hg visits
  refine ⟨N, fun m o hNm h => ?_⟩
  have hg' : genStart R { a.toArgs with maxiter := m } g = g := by
    unfold genStart
    simp only [hx0, hseed]
  obtain ⟨qs, hx, -, hch⟩ := hmc_chain hR (a := { a with maxiter := m }) hfn hφ hh hj hc hall h
    (q := fun j => x.get [j]) (by
      intro y hy
      unfold FirstSample at hy
      simp only [hx0] at hy
      rw [hy hshape]
      rfl)
  refine ⟨qs.map point, hx, ks, hcard, fun k hk => ⟨_, (hks k hk).2, ?_⟩⟩
  have hkm : k < m := lt_of_lt_of_le (hks k hk).1 hNm
  rw [List.getElem?_map, hch k (by show (k : Int) < m; omega)]
  show some (point (chain _ _ (numbers R _ (genStart R { a.toArgs with maxiter := m } g)) k)) = _
  rw [hg']
  rfl

/-- Without the condition on the trajectories 'hmc' can miss almost everything for ever: the call `periodicArgs` (the square in one
dimension) started in `x`, with any generator, any state and any number of iterations, never leaves `{x, -x}`. -/
theorem C96_hmc_violated (hR : R.Ok) (x : ℝ) :
    ∃ U : Set (Vec ℝ 1), IsOpen U ∧ U.Nonempty ∧ ∀ (g : σ) (m : Nat), ∃ o xs, (HMC.sample R (periodicArgs x m) g).1 = .ok o ∧
      o.xall = some xs ∧ xs.length = m + 1 ∧ ∀ q ∈ U, point q ∉ xs := by
  refine ⟨{y | |x| < y 0}, isOpen_lt continuous_const (continuous_apply 0), ⟨fun _ => |x| + 1, ?_⟩, fun g m => ?_⟩
  · show |x| < |x| + 1
    linarith
  · obtain ⟨o, xs, h1, h2, h3, h4⟩ := C95_hmc_violated hR g x m
    refine ⟨o, xs, h1, h2, h3, fun q hq hmem => ?_⟩
    have hq : |x| < q 0 := hq
    rcases h4 _ hmem with h | h
    · have h5 : q 0 = x := Val.fin.inj (congrFun h 0)
      rw [h5] at hq
      exact absurd (le_abs_self x) (not_le.2 hq)
    · have h5 : q 0 = -x := Val.fin.inj (congrFun h 0)
      rw [h5] at hq
      exact absurd (neg_le_abs x) (not_le.2 hq)

/-! ## Objectives without a finite integral -/

/-- For a constant objective every proposal is accepted. -/
theorem flat_chain {n per : Nat} (hper : 0 < per) (he : per = n) {v : ℝ} (scale x : Vec ℝ n) {ω : Nat → Vec ℝ per × ℝ}
    (hω : ∀ k, (ω k).2 ∈ Set.Ico (0 : ℝ) 1) :
    ∀ k, chain (mcmcNext (fun _ => v) scale hper) x ω k = fun j => x j + walkSum ω k ⟨j.val, he ▸ j.isLt⟩ * scale j
  | 0 => by
    funext j
    simp [chain, walkSum]
  | k + 1 => by
    have ih := flat_chain hper he (v := v) scale x hω k
    show mcmcNext (fun _ => v) scale hper k (chain (mcmcNext (fun _ => v) scale hper) x ω k) (ω k) = _
    rw [ih]
    unfold mcmcNext walkStep
    dsimp only
    rw [Val.fin_sub, if_pos ((metropolis_exp (hω k).1 (hω k).2).2 (by rw [sub_self, Real.exp_zero]; exact (hω k).2))]
    funext j
    have hj : j.val < per := he ▸ j.isLt
    have hb : blockCount n per = 1 := by
      unfold blockCount
      rw [← he, show per + per - 1 = per - 1 + per by omega, Nat.add_div_right _ hper, Nat.div_eq_of_lt (by omega)]
    unfold blockMove
    rw [hb, Nat.mod_one, if_pos (Nat.div_eq_of_lt hj)]
    have : (⟨j.val % per, Nat.mod_lt _ hper⟩ : Fin per) = ⟨j.val, hj⟩ := Fin.ext (Nat.mod_eq_of_lt hj)
    simp only [this]
    unfold walkSum
    rw [Finset.sum_range_succ]
    ring

/-- The integral has to be finite: for a constant objective of three or more variables that are moved together (`perc=1`), with
probability one the chain leaves the search space for good.  (The default is `constraints=None`.) -/
theorem C96_flat_violated [MeasurableSpace σ] {Q : Measure σ} (hQ : Ideal R Q) (hR : R.Ok) {a : MCMC.Args ℝ} {v : ℝ}
    (hfn : a.fn = some fun _ => .fin v) (hc : a.constraints ≠ some "Reject") (hs : ∀ c, scaleOf a.toArgs c ≠ 0)
    (hn : 3 ≤ a.ndim) (hp : a.perc = 1) (hx0 : a.x0 = none) (hseed : a.seed = none) (hall : a.returnAll = true) :
    ∀ᵐ g ∂Q, ∃ N : Nat, ∀ (m fuel : Nat) (o : Sampling.Output σ ℝ a.ndim),
      (MCMC.sample R fuel { a with maxiter := m } g).1 = .ok o →
      ∃ xs, o.xall = some xs ∧ xs.length = m ∧ ∀ k, N ≤ k → ∀ x, xs[k]? = some x → ¬ Inside a.lower a.upper x := by
  have hb : blockSize a.perc a.ndim = a.ndim := by
    unfold blockSize
    rw [hp, one_mul, Nat.floor_natCast]
    omega
  have h1 : ∀ᵐ ω ∂(inputs ((gauss (blockSize a.perc a.ndim)).prod unifLaw)), ∀ M : Nat, ∀ᶠ k in atTop,
      ¬ ∀ j, walkSum ω k j ∈ Set.Icc (-(M : ℝ)) M := by
    rw [ae_all_iff]
    exact fun M => walkSum_leaves (by rw [hb]; exact hn) (fun _ => -(M : ℝ)) fun _ => M
  have h2 : ∀ᵐ z ∂((Measure.pi fun _ : Fin a.ndim => unifLaw).prod (inputs ((gauss (blockSize a.perc a.ndim)).prod unifLaw))),
      ∀ M : Nat, ∀ᶠ k in atTop, ¬ ∀ j, walkSum z.2 k j ∈ Set.Icc (-(M : ℝ)) M :=
    Measure.quasiMeasurePreserving_snd.ae h1
  obtain ⟨hmeas, hlaw⟩ := hQ.start a.ndim (blockSize a.perc a.ndim)
  rw [← hlaw] at h2
  refine (ae_of_ae_map hmeas.aemeasurable h2).mono fun g hg => ?_
  set q0 := boxPoint a.toArgs (drawVec R.rand a.ndim g).1 with hq0
  set ω := numbers R (blockSize a.perc a.ndim) ((fun g => (R.rand g).2)^[a.ndim] g) with hω
  -- how far the walk can be when the sample is inside
  obtain ⟨M, hM⟩ := exists_nat_ge (∑ j : Fin a.ndim, (|a.lower j| + |a.upper j| + |q0 j|) / |scaleOf a.toArgs j|)
  obtain ⟨N, hN⟩ := eventually_atTop.1 (hg M)
  refine ⟨N, fun m fuel o h => ?_⟩
  obtain ⟨xs, ms, hrun, hx, -⟩ := C44_mcmc hR (a := { a with maxiter := m }) hfn h
  have hxs := hx hall
  have hlen : (xs.length : Int) = m := hrun.length
  refine ⟨xs, hxs, by omega, fun k hk x hxk hin => ?_⟩
  have hkm : k < xs.length := (List.getElem?_eq_some_iff.1 hxk).1
  have h0 : xs[0]? = some (point q0) := by
    rw [List.getElem?_eq_getElem (show 0 < xs.length by omega)]
    have := hrun.first _ (List.getElem?_eq_getElem (show 0 < xs.length by omega))
    unfold FirstSample at this
    simp only [hx0, hseed] at this
    rw [this]
    rfl
  have hat := mcmc_chain hR (a := { a with maxiter := m }) hfn (φ := fun _ => v) (fun _ => rfl) hc hall h hxs h0 k
    (by show (k : Int) < m; omega)
  have hg' : genStart R { a.toArgs with maxiter := m } g = (fun g => (R.rand g).2)^[a.ndim] g := by
    unfold genStart
    simp only [hx0, hseed]
  have hat' : xs[k]? = some (point (chain (mcmcNext (fun _ => v) (scaleOf a.toArgs) (blockSize_pos a.perc a.ndim)) q0 ω k)) := by
    rw [hat]
    show some (point (chain _ _ (numbers R _ (genStart R { a.toArgs with maxiter := m } g)) k)) = _
    rw [hg']
    rfl
  rw [flat_chain (blockSize_pos a.perc a.ndim) hb (scaleOf a.toArgs) q0 fun k => ⟨hR.rand_nonneg _, hR.rand_lt_one _⟩] at hat'
  rw [hxk] at hat'
  rw [Option.some.inj hat'] at hin
  refine hN k hk fun j => ?_
  have hj : j.val < a.ndim := lt_of_lt_of_eq j.isLt hb
  obtain ⟨hl, hu⟩ := hin ⟨j.val, hj⟩
  have hl : a.lower ⟨j.val, hj⟩ ≤ q0 ⟨j.val, hj⟩ + walkSum ω k j * scaleOf a.toArgs ⟨j.val, hj⟩ := hl
  have hu : q0 ⟨j.val, hj⟩ + walkSum ω k j * scaleOf a.toArgs ⟨j.val, hj⟩ ≤ a.upper ⟨j.val, hj⟩ := hu
  have habs : |walkSum ω k j| * |scaleOf a.toArgs ⟨j.val, hj⟩| ≤
      |a.lower ⟨j.val, hj⟩| + |a.upper ⟨j.val, hj⟩| + |q0 ⟨j.val, hj⟩| := by
    rw [← abs_mul, abs_le]
    have e1 := neg_abs_le (a.lower ⟨j.val, hj⟩)
    have e2 := le_abs_self (a.upper ⟨j.val, hj⟩)
    have e3 := neg_abs_le (q0 ⟨j.val, hj⟩)
    have e4 := le_abs_self (q0 ⟨j.val, hj⟩)
    have e5 := abs_nonneg (a.lower ⟨j.val, hj⟩)
    have e6 := abs_nonneg (a.upper ⟨j.val, hj⟩)
    constructor <;> linarith
  have hle : |walkSum ω k j| ≤ (M : ℝ) := by
    refine le_trans ?_ hM
    refine le_trans ((le_div_iff₀ (abs_pos.2 (hs ⟨j.val, hj⟩))).2 habs) ?_
    exact Finset.single_le_sum (f := fun j : Fin a.ndim => (|a.lower j| + |a.upper j| + |q0 j|) / |scaleOf a.toArgs j|)
      (fun j _ => by positivity) (Finset.mem_univ (⟨j.val, hj⟩ : Fin a.ndim))
  exact abs_le.1 hle

end Runs

/-! ## Concrete cases -/

namespace Concrete

/-- `exp (-x²)` has a finite integral. -/
theorem squares_integrable (n : Nat) : ∫⁻ x : Vec ℝ n, ENNReal.ofReal (Real.exp (-∑ j, x j ^ 2)) ≠ ∞ := by
  have h1 : ∀ x : Vec ℝ n, ENNReal.ofReal (Real.exp (-∑ j, x j ^ 2)) = ∏ j, ENNReal.ofReal (Real.exp (-(x j) ^ 2)) := by
    intro x
    rw [← Finset.sum_neg_distrib, Real.exp_sum, ENNReal.ofReal_prod_of_nonneg fun j _ => (Real.exp_pos _).le]
  simp only [h1]
  rw [lintegral_pi_prod (fun _ t => ENNReal.ofReal (Real.exp (-t ^ 2))) fun _ => by fun_prop]
  refine ENNReal.prod_ne_top fun j _ => ?_
  have h2 := integrable_exp_neg_mul_sq (b := 1) one_pos
  simp only [neg_mul, one_mul] at h2
  exact h2.lintegral_lt_top.ne

/-- The sum of squares of two variables, `realArgs`: it returns for every number of iterations, and with probability one it
visits the small square around `(3, 3)`, far outside the search space, as often as wanted. -/
example : (∀ g : Nat → ℝ × ℝ, ∀ m : Nat, 1 ≤ m → ∃ o, (MCMC.sample streamRng m { realArgs with maxiter := m } g).1 = .ok o) ∧
    ∀ᵐ g ∂streamLaw, ∀ visits : Nat, ∃ N : Nat, ∀ (m fuel : Nat) (o : Sampling.Output (Nat → ℝ × ℝ) ℝ 2), N ≤ m →
      (MCMC.sample streamRng fuel { realArgs with maxiter := m } g).1 = .ok o →
      ∃ xs, o.xall = some xs ∧ ∃ ks : Finset Nat, ks.card = visits ∧
        ∀ k ∈ ks, ∃ q ∈ Set.univ.pi fun _ : Fin 2 => Set.Ioo (2.9 : ℝ) 3.1, xs[k]? = some (point q) := by
  constructor
  · intro g m hm
    refine (C49_mcmc_partial (K := ℝ) (R := streamRng) (g := g) (fuel := m) (a := { realArgs with maxiter := m }) streamRng_ok
      ⟨⟨rfl, rfl, ?_, rfl, ?_, ?_⟩, ?_⟩ ?_ ?_).1.2 (Or.inl ?_)
    · rintro x ⟨⟩
    · rintro ⟨⟩
    · show (1 : Int) ≤ m
      omega
    · exact ⟨zero_le_one, le_refl _⟩
    · exact (by decide : 0 < 2)
    · exact le_refl m
    · show max 1 ⌊(1 : ℝ) * ((2 : Nat) : ℝ)⌋₊ ∣ 2
      rw [one_mul, Nat.floor_natCast]
      decide
  · refine C96_mcmc stream_ideal streamRng_ok (a := realArgs) (φ := fun x : Vec ℝ 2 => ∑ j, x j ^ 2) rfl ?_ ?_
      (squares_integrable 2) (by rintro ⟨⟩) ?_ (by decide) rfl rfl rfl ?_ ?_
    · intro (x : Vec ℝ 2)
      show Val.fin (x 0 * x 0 + x 1 * x 1) = .fin (∑ j : Fin 2, x j ^ 2)
      rw [Fin.sum_univ_two]
      congr 1
      ring
    · exact Finset.measurable_sum _ fun j _ => (measurable_pi_apply j).pow_const 2
    · intro c
      show (1 / 2 : ℝ) * (((if 1 = 0 then -1 else 1 : ℝ) - (if 0 = 0 then -1 else 1 : ℝ)) / 2) ≠ 0
      norm_num
    · exact MeasurableSet.univ_pi fun _ => measurableSet_Ioo
    · show 0 < (volume : Measure (Vec ℝ 2)) (Set.univ.pi fun _ : Fin 2 => Set.Ioo (2.9 : ℝ) 3.1)
      rw [volume_pi_pi]
      refine pos_iff_ne_zero.2 (Finset.prod_ne_zero_iff.2 fun j _ => ?_)
      rw [Real.volume_Ioo]
      norm_num

/-- A constant objective of three variables. -/
noncomputable def flatArgs : MCMC.Args ℝ where
  bounds := { shape := [3, 2], get := fun l => if l.getD 1 0 = 0 then -1 else 1 }
  fn := some fun _ : Vec (Val ℝ) 3 => .fin 0
  x0 := none
  maxiter := 5
  stepsize := .scalar false (1 / 2)
  seed := none
  constraints := none
  returnAll := true
  callback := none
  perc := 1

/-- It returns for every number of iterations, and meets the hypotheses of `C96_flat_violated`. -/
example : (∀ g : Nat → ℝ × ℝ, ∀ m : Nat, 1 ≤ m → ∃ o, (MCMC.sample streamRng m { flatArgs with maxiter := m } g).1 = .ok o) ∧
    ∀ᵐ g ∂streamLaw, ∃ N : Nat, ∀ (m fuel : Nat) (o : Sampling.Output (Nat → ℝ × ℝ) ℝ 3),
      (MCMC.sample streamRng fuel { flatArgs with maxiter := m } g).1 = .ok o →
      ∃ xs, o.xall = some xs ∧ xs.length = m ∧ ∀ k, N ≤ k → ∀ x, xs[k]? = some x → ¬ Inside flatArgs.lower flatArgs.upper x := by
  constructor
  · intro g m hm
    refine (C49_mcmc_partial (K := ℝ) (R := streamRng) (g := g) (fuel := m) (a := { flatArgs with maxiter := m }) streamRng_ok
      ⟨⟨rfl, rfl, ?_, rfl, ?_, ?_⟩, ?_⟩ ?_ ?_).1.2 (Or.inl ?_)
    · rintro x ⟨⟩
    · rintro ⟨⟩
    · show (1 : Int) ≤ m
      omega
    · exact ⟨zero_le_one, le_refl _⟩
    · exact (by decide : 0 < 3)
    · exact le_refl m
    · show max 1 ⌊(1 : ℝ) * ((3 : Nat) : ℝ)⌋₊ ∣ 3
      rw [one_mul, Nat.floor_natCast]
      decide
  · refine C96_flat_violated stream_ideal streamRng_ok (a := flatArgs) (v := 0) rfl (by rintro ⟨⟩) ?_ (by decide) rfl rfl rfl rfl
    intro c
    show (1 / 2 : ℝ) * (((if 1 = 0 then -1 else 1 : ℝ) - (if 0 = 0 then -1 else 1 : ℝ)) / 2) ≠ 0
    norm_num

/-- The generator `streamRng` is ideal and its law is a probability. -/
example : Ideal streamRng streamLaw ∧ streamRng.Ok ∧ streamLaw Set.univ = 1 := by
  refine ⟨stream_ideal, streamRng_ok, ?_⟩
  unfold streamLaw
  exact measure_univ

end Concrete

end Stochopy
