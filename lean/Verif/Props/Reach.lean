import Verif.Lemmas.ReachHMC
import Verif.Props.Leapfrog
import Verif.Props.Gaussian
import Verif.Props.VDGaussian

/-!
# C95: the samplers and the Gaussian optimizers can get everywhere

`reach P B l x` (`Spec/Reach.lean`) is the probability that a chain started in `x` is in `B` after the transitions `l`.  C45
says which transitions a chain of 'mcmc' or 'hmc' makes, C65 how a generation of 'cmaes' or 'vdcma' is drawn.
-/

set_option linter.unusedSectionVars false

namespace Stochopy
open Spec Sampling MeasureTheory Concrete
open scoped ENNReal

/-- `reach` is the probability of an event in the space of independent random inputs. -/
theorem C95_reach {n : Nat} {Ω : Type} [MeasurableSpace Ω] {P : Measure Ω} [IsProbabilityMeasure P] {B : Set (Vec ℝ n)}
    (hB : MeasurableSet B) (l : List (Vec ℝ n → Ω → Vec ℝ n))
    (hl : ∀ next ∈ l, Measurable fun e : Vec ℝ n × Ω => next e.1 e.2) (x : Vec ℝ n) :
    reach P B l x = (Measure.pi fun _ : Fin l.length => P) {ω | walk l x ω ∈ B} :=
  reach_eq_pi hB l hl x

/-! ## 'mcmc' -/

/-- The transitions of `m` iterations, the first of them being number `k`. -/
noncomputable def walkSteps {n : Nat} (f : Vec ℝ n → ℝ) (scale : Vec ℝ n) (per k m : Nat) :
    List (Vec ℝ n → Vec ℝ n × ℝ → Vec ℝ n) :=
  (List.range m).map fun i => walkStep f scale per ((k + i) % blockCount n per)

theorem walkSteps_measurable {n : Nat} {f : Vec ℝ n → ℝ} (hf : Measurable f) (scale : Vec ℝ n) (per k m : Nat) :
    ∀ next ∈ walkSteps f scale per k m, Measurable fun e : Vec ℝ n × (Vec ℝ n × ℝ) => next e.1 e.2 := by
  intro next h
  obtain ⟨i, -, rfl⟩ := List.mem_map.1 h
  exact measurable_walkStep hf scale per _

theorem walkSteps_succ {n : Nat} (f : Vec ℝ n → ℝ) (scale : Vec ℝ n) (per k m : Nat) :
    walkSteps f scale per k (m + 1) = walkStep f scale per (k % blockCount n per) :: walkSteps f scale per (k + 1) m := by
  unfold walkSteps
  rw [List.range_succ_eq_map, List.map_cons, List.map_map]
  congr 1
  refine List.map_congr_left fun i _ => ?_
  show walkStep f scale per ((k + (i + 1)) % _) = walkStep f scale per ((k + 1 + i) % _)
  rw [show k + (i + 1) = k + 1 + i by omega]

/-- Once every block had its turn, any set of positive volume is reached with positive probability, whatever the objective. -/
theorem C95_mcmc_kernel {n : Nat} {f : Vec ℝ n → ℝ} (hf : Measurable f) {scale : Vec ℝ n} (hs : ∀ c, scale c ≠ 0)
    {per : Nat} (hper : 1 ≤ per) {B : Set (Vec ℝ n)} (hB : MeasurableSet B) (hv : volume B ≠ 0) :
    ∀ (m k : Nat), blockCount n per ≤ m → ∀ x,
      0 < reach ((gauss n).prod unifLaw) B (walkSteps f scale per k m) x := by
  intro m
  induction m with
  | zero =>
    intro k hm x
    rw [pos_iff_ne_zero]
    have h0 : n = 0 := by
      by_contra hn
      unfold blockCount at hm
      have : 1 ≤ (n + per - 1) / per := (Nat.one_le_div_iff (by omega)).2 (by omega)
      omega
    have := reach_sweep hf hs (per := per) (bs := []) List.nodup_nil (fun c => absurd c.isLt (by omega)) hB hv x
    exact this
  | succ m ih =>
    intro k hm x
    rw [pos_iff_ne_zero]
    rcases Nat.lt_or_ge m (blockCount n per) with h | h
    · -- exactly one sweep
      have he : blockCount n per = m + 1 := by omega
      have h1 : walkSteps f scale per k (m + 1) = ((List.range (m + 1)).map fun i => (k + i) % (m + 1)).map (walkStep f scale per) := by
        unfold walkSteps
        rw [List.map_map, he]
        rfl
      rw [h1]
      have hinj : ∀ i ∈ List.range (m + 1), ∀ j ∈ List.range (m + 1), (k + i) % (m + 1) = (k + j) % (m + 1) → i = j := by
        intro i hi j hj hij
        rw [List.mem_range] at hi hj
        have := Nat.ModEq.add_left_cancel' k hij
        unfold Nat.ModEq at this
        rwa [Nat.mod_eq_of_lt hi, Nat.mod_eq_of_lt hj] at this
      refine reach_sweep hf hs (List.Nodup.map_on hinj List.nodup_range) (fun c => ?_) hB hv x
      have hc : c.val / per < m + 1 := by
        rw [← he]
        unfold blockCount
        rw [Nat.lt_iff_add_one_le, Nat.le_div_iff_mul_le (by omega)]
        have h2 := Nat.div_mul_le_self c.val per
        have h3 := c.isLt
        rw [Nat.add_mul, one_mul]
        omega
      rw [List.mem_map]
      refine ⟨(c.val / per + (m + 1 - k % (m + 1))) % (m + 1), List.mem_range.2 (Nat.mod_lt _ (by omega)), ?_⟩
      rw [Nat.add_mod_mod]
      have hk := Nat.mod_lt k (show 0 < m + 1 by omega)
      have h4 : (k + (c.val / per + (m + 1 - k % (m + 1)))) = c.val / per + (m + 1) * (k / (m + 1) + 1) := by
        have := Nat.mod_add_div k (m + 1)
        have h5 : (m + 1) * (k / (m + 1) + 1) = (m + 1) * (k / (m + 1)) + (m + 1) := by ring
        omega
      rw [h4, Nat.add_mul_mod_self_left, Nat.mod_eq_of_lt hc]
    · rw [walkSteps_succ]
      refine reach_cons_pos hB ?_ (fun y => (pos_iff_ne_zero.1 (ih (k + 1) h y))) x
      rw [← walkSteps_succ]
      exact walkSteps_measurable hf scale per k (m + 1)

/-- Following given transitions with given inputs. -/
theorem walk_eq {n : Nat} {Ω : Type} : ∀ (l : List (Vec ℝ n → Ω → Vec ℝ n)) (s : Nat → Vec ℝ n) (w : Nat → Ω),
    (∀ i (h : i < l.length), s (i + 1) = l[i] (s i) (w i)) → walk l (s 0) (fun i => w i) = s l.length
  | [], _, _, _ => rfl
  | next :: l, s, w, h => by
    have h0 := h 0 (by simp)
    have := walk_eq l (fun i => s (i + 1)) (fun i => w (i + 1)) fun i hi => h (i + 1) (by simpa using hi)
    show walk l (next (s 0) (w 0)) _ = s (l.length + 1)
    rw [show next (s 0) (w 0) = s 1 from h0.symm]
    exact this

/-- The chains of 'mcmc' without constraints: `m` iterations after any sample `q` the chain is where the transitions lead with
the numbers of the generator, and with independent normal and uniform numbers they would lead to any given set of positive
volume with positive probability. -/
theorem C95_mcmc {σ : Type} {R : Rng σ ℝ} {fuel : Nat} {g : σ} (hR : R.Ok) {a : MCMC.Args ℝ} {o : Sampling.Output σ ℝ a.ndim}
    {fn : Vec (Val ℝ) a.ndim → Val ℝ} (hfn : a.fn = some fn) {φ : Vec ℝ a.ndim → ℝ} (hφ : ∀ x, fn (point x) = .fin (φ x))
    (hm : Measurable φ) (hc : a.constraints ≠ some "Reject") (hs : ∀ c, scaleOf a.toArgs c ≠ 0)
    (h : (MCMC.sample R fuel a g).1 = .ok o) :
    ∃ qs : List (Vec ℝ a.ndim), (a.returnAll = true → o.xall = some (qs.map point)) ∧ (qs.length : Int) = a.maxiter ∧
      ∀ k m q q', qs[k]? = some q → qs[k + m]? = some q' →
        let per := blockSize a.perc a.ndim
        let steps := walkSteps φ (scaleOf a.toArgs) per k m
        q' = walk steps q (fun i =>
          let gi := genAt R per true (genStart R a.toArgs g) (k + i)
          (fun c => normal R gi (c.val % per), uniform R gi per)) ∧
        (blockCount a.ndim per ≤ m → ∀ B, MeasurableSet B → 0 < volume B →
          0 < reach ((gauss a.ndim).prod unifLaw) B steps q) := by
  obtain ⟨qs, h1, h2, h3⟩ := C45_mcmc hR hfn hφ hc h
  refine ⟨qs, h1, h2, fun k m q q' hq hq' => ⟨?_, fun hb B hB hv => ?_⟩⟩
  · have hlen : (walkSteps φ (scaleOf a.toArgs) (blockSize a.perc a.ndim) k m).length = m := by simp [walkSteps]
    have hlt : k + m < qs.length := (List.getElem?_eq_some_iff.1 hq').1
    have hget : ∀ i, i ≤ m → qs[k + i]? = some ((qs[k + i]?).getD q) := by
      intro i hi
      rw [List.getElem?_eq_getElem (show k + i < qs.length by omega)]
      rfl
    have := walk_eq (walkSteps φ (scaleOf a.toArgs) (blockSize a.perc a.ndim) k m) (fun i => (qs[k + i]?).getD q)
      (fun i => (fun c => normal R (genAt R (blockSize a.perc a.ndim) true (genStart R a.toArgs g) (k + i))
          (c.val % (blockSize a.perc a.ndim)),
        uniform R (genAt R (blockSize a.perc a.ndim) true (genStart R a.toArgs g) (k + i)) (blockSize a.perc a.ndim))) (by
        intro i hi
        rw [hlen] at hi
        have hstep := h3 (k + i) _ _ (hget i hi.le) (hget (i + 1) (by omega))
        refine hstep.trans ?_
        have hel : (walkSteps φ (scaleOf a.toArgs) (blockSize a.perc a.ndim) k m)[i] =
            walkStep φ (scaleOf a.toArgs) (blockSize a.perc a.ndim) ((k + i) % blockCount a.ndim (blockSize a.perc a.ndim)) := by
          exact (List.getElem_map _).trans (by rw [List.getElem_range])
        rw [hel])
    have e0 : (qs[k + 0]?).getD q = q := by rw [Nat.add_zero, hq]; rfl
    have e1 : (qs[k + (walkSteps φ (scaleOf a.toArgs) (blockSize a.perc a.ndim) k m).length]?).getD q = q' := by
      rw [hlen, hq']; rfl
    rw [e0, e1] at this
    exact this.symm
  · refine C95_mcmc_kernel hm hs ?_ hB (pos_iff_ne_zero.1 hv) m k hb q
    unfold blockSize
    omega

/-- The hypotheses of `C95_mcmc` are met by a run (see `realArgs`). -/
example : (∀ c, scaleOf realArgs.toArgs c ≠ 0) ∧ Measurable (fun x : Vec ℝ 2 => x 0 * x 0 + x 1 * x 1) := by
  constructor
  · intro c
    show (1 / 2 : ℝ) * (((if 1 = 0 then -1 else 1 : ℝ) - (if 0 = 0 then -1 else 1 : ℝ)) / 2) ≠ 0
    norm_num
  · exact ((measurable_pi_apply 0).mul (measurable_pi_apply 0)).add ((measurable_pi_apply 1).mul (measurable_pi_apply 1))

/-- With constraints='Reject' both samplers stay where they start, so nothing else is reached. -/
theorem C95_reject_violated {σ : Type} {R : Rng σ ℝ} {fuel : Nat} {g : σ} (hR : R.Ok) :
    (∀ {a : MCMC.Args ℝ} {o : Sampling.Output σ ℝ a.ndim}, a.constraints = some "Reject" →
      (MCMC.sample R fuel a g).1 = .ok o → ∀ xs, o.xall = some xs → ∃ x, ∀ y ∈ xs, y = x) ∧
    (∀ {a : HMC.Args ℝ} {o : Sampling.Output σ ℝ a.ndim}, a.constraints = some "Reject" →
      (HMC.sample R a g).1 = .ok o → ∀ xs, o.xall = some xs → ∃ x, ∀ y ∈ xs, y = x) :=
  ⟨fun hc h => (C47_mcmc_violated hR hc h).2, fun hc h => (C47_hmc_violated hc h).2⟩

/-! ## 'hmc' -/

/-- One iteration of 'hmc' reaches every set of positive volume with positive probability when the gradient it uses is Lipschitz continuous with a
constant `κ` and the trajectories are short: `(nleap + 1) * stepsize * sqrt κ ≤ 1`. -/
theorem C95_hmc_partial {σ : Type} {R : Rng σ ℝ} {g : σ} (hR : R.Ok) {a : HMC.Args ℝ} {o : Sampling.Output σ ℝ a.ndim}
    {fn : Vec (Val ℝ) a.ndim → Val ℝ} (hfn : a.fn = some fn) {φ : Vec ℝ a.ndim → ℝ} (hφ : ∀ x, fn (point x) = .fin (φ x))
    (hh : a.fdStep ≠ 0) (hj : a.jac = none) (hc : a.constraints ≠ some "Reject") (hs : ∀ c, scaleOf a.toArgs c ≠ 0)
    {κ e : ℝ} (hκ : 0 ≤ κ) (he0 : 0 ≤ e) (he : ∀ c, |scaleOf a.toArgs c| ≤ e)
    (hl : ∀ x y, ‖centralGradient φ a.fdStep x - centralGradient φ a.fdStep y‖ ≤ κ * ‖x - y‖)
    (hshort : (((a.nleap.toNat + 1 : Nat) : ℝ) * e) ^ 2 * κ ≤ 1)
    (h : (HMC.sample R a g).1 = .ok o) :
    ∃ qs : List (Vec ℝ a.ndim), (a.returnAll = true → o.xall = some (qs.map point)) ∧ (qs.length : Int) = a.maxiter ∧
      ∀ k q q', qs[k]? = some q → qs[k + 1]? = some q' →
        let gk := genAt R a.ndim true (genStart R a.toArgs g) k
        let next := hamiltonianStep φ (centralGradient φ a.fdStep) (scaleOf a.toArgs) (a.nleap.toNat + 1)
        q' = next q (fun c => normal R gk c, uniform R gk a.ndim) ∧
        ∀ B : Set (Vec ℝ a.ndim), 0 < volume B → 0 < ((gauss a.ndim).prod unifLaw) {ω | next q ω ∈ B} := by
  obtain ⟨qs, h1, h2, h3⟩ := C45_hmc hR hfn hφ hh hj hc h
  refine ⟨qs, h1, h2, fun k q q' hq hq' => ⟨h3 k q q' hq hq', fun B hB => ?_⟩⟩
  rw [pos_iff_ne_zero]
  exact hamiltonian_reach hκ hl he hs (by omega) hshort he0 q hB.ne'

/-- The gradient of a sum of squares. -/
theorem centralGradient_sq {n : Nat} {h : ℝ} (hh : h ≠ 0) (x : Vec ℝ n) :
    centralGradient (fun x : Vec ℝ n => ∑ j, x j ^ 2) h x = fun j => 2 * x j := by
  funext j
  unfold centralGradient
  dsimp only
  have : ∀ t : ℝ, ∑ i, (Function.update x j t) i ^ 2 = t ^ 2 + ∑ i ∈ Finset.univ.erase j, x i ^ 2 := by
    intro t
    rw [← Finset.add_sum_erase _ _ (Finset.mem_univ j), Function.update_self]
    congr 1
    exact Finset.sum_congr rfl fun i hi => by rw [Function.update_of_ne (Finset.ne_of_mem_erase hi)]
  rw [this, this]
  field_simp
  ring

/-- The hypothesis on the gradient holds for a sum of squares, with `κ = 2`; 5 leap-frog steps of 1/10 are short enough. -/
example {n : Nat} : (∀ x y : Vec ℝ n, ‖centralGradient (fun x : Vec ℝ n => ∑ j, x j ^ 2) 1 x -
      centralGradient (fun x : Vec ℝ n => ∑ j, x j ^ 2) 1 y‖ ≤ 2 * ‖x - y‖) ∧
    (((4 + 1 : Nat) : ℝ) * (1 / 10)) ^ 2 * 2 ≤ 1 := by
  refine ⟨fun x y => ?_, by norm_num⟩
  rw [centralGradient_sq one_ne_zero, centralGradient_sq one_ne_zero]
  have : (fun j => 2 * x j) - (fun j => 2 * y j) = (2 : ℝ) • (x - y) := by
    funext j
    show 2 * x j - 2 * y j = 2 * (x j - y j)
    ring
  rw [this, norm_smul]
  norm_num

/-- Without it the chain can be periodic: for the sum of squares and steps of size 1, two leap-frog steps lead from `q` to `-q`
whatever the momentum is, and the energy does not change. -/
theorem C95_hmc_period {n : Nat} {h : ℝ} (hh : h ≠ 0) (q : Vec ℝ n) {ω : Vec ℝ n × ℝ} (h0 : 0 ≤ ω.2) (h1 : ω.2 < 1) :
    hamiltonianStep (fun x : Vec ℝ n => ∑ j, x j ^ 2) (centralGradient (fun x : Vec ℝ n => ∑ j, x j ^ 2) h) (fun _ => 1) 2 q ω =
      -q := by
  have hv : ∀ z : Vec ℝ n × Vec ℝ n,
      verlet (centralGradient (fun x : Vec ℝ n => ∑ j, x j ^ 2) h) (fun _ => 1) z = (z.2, -z.1) := by
    intro z
    have hq : (fun j => z.1 j + 1 * (z.2 j - 1 / 2 * (2 * z.1 j))) = z.2 := by funext j; ring
    unfold verlet
    simp only [centralGradient_sq hh]
    refine Prod.ext hq (funext fun j => ?_)
    show z.2 j - 1 / 2 * (2 * z.1 j) - 1 / 2 * (2 * (z.1 j + 1 * (z.2 j - 1 / 2 * (2 * z.1 j)))) = - z.1 j
    ring
  have h2 : (verlet (centralGradient (fun x : Vec ℝ n => ∑ j, x j ^ 2) h) (fun _ => 1))^[2] (q, ω.1) = (-q, -ω.1) := by
    show verlet _ _ (verlet _ _ (q, ω.1)) = _
    rw [hv, hv]
  unfold hamiltonianStep
  rw [h2]
  dsimp only
  have h3 : hamiltonian (fun x : Vec ℝ n => ∑ j, x j ^ 2) (q, ω.1) - hamiltonian (fun x : Vec ℝ n => ∑ j, x j ^ 2) (-q, -ω.1) = 0 := by
    unfold hamiltonian
    simp
  rw [h3, if_pos ((metropolis_exp h0 h1).2 (by rw [Real.exp_zero]; exact h1))]

/-- A call of 'hmc' in one dimension: the square, bounds ±1, `stepsize=1.0`, `nleap=1`. -/
noncomputable def periodicArgs (x : ℝ) (samples : Nat) : HMC.Args ℝ where
  bounds := { shape := [1, 2], get := fun l => if l.getD 1 0 = 0 then -1 else 1 }
  fn := some fun x : Vec (Val ℝ) 1 => x 0 * x 0
  x0 := some { shape := [1], get := fun _ => x }
  maxiter := samples + 1
  stepsize := .scalar false 1
  seed := none
  constraints := none
  returnAll := true
  callback := none
  nleap := 1
  jac := none
  fdStep := 1 / 1000
  extraArgs := false

/-- It returns with any number of samples and any generator, and all samples are `x` or `-x`. -/
theorem C95_hmc_violated {σ : Type} {R : Rng σ ℝ} (hR : R.Ok) (g : σ) (x : ℝ) (samples : Nat) :
    ∃ o xs, (HMC.sample R (periodicArgs x samples) g).1 = .ok o ∧ o.xall = some xs ∧ xs.length = samples + 1 ∧
      ∀ y ∈ xs, y = (fun _ => .fin x) ∨ y = (fun _ => .fin (-x)) := by
  have hval : ∃ o, (HMC.sample R (periodicArgs x samples) g).1 = .ok o := by
    refine C62_hmc.2 ⟨⟨⟨rfl, rfl, ?_, rfl, ?_, ?_⟩, ?_, ?_⟩, Or.inl rfl⟩
    · rintro y ⟨⟩; exact Or.inl rfl
    · rintro ⟨⟩
    · show (1 : Int) ≤ samples + 1
      omega
    · exact le_refl 1
    · rintro ⟨⟩
  obtain ⟨o, ho⟩ := hval
  have hφ : ∀ z : Vec ℝ 1, (fun x : Vec (Val ℝ) 1 => x 0 * x 0) (point z) = .fin (∑ j, z j ^ 2) := by
    intro z
    show Val.fin (z 0) * Val.fin (z 0) = _
    rw [Val.fin_mul, Fin.sum_univ_one, sq]
  have hfd : (periodicArgs x samples).fdStep ≠ 0 := by show (1 / 1000 : ℝ) ≠ 0; norm_num
  obtain ⟨qs, ms, hrun, hall, -⟩ := HMC.finite_run hR (a := periodicArgs x samples) rfl hφ hfd rfl ho
  obtain ⟨qs', h1, h2, h3⟩ := C45_hmc hR (a := periodicArgs x samples) rfl hφ hfd rfl (by rintro ⟨⟩) ho
  have hqs : qs' = qs := by
    have hinj : Function.Injective (point : Vec ℝ 1 → Vec (Val ℝ) 1) := by
      intro u v huv
      funext j
      exact Val.fin.inj (congrFun huv j)
    have := (h1 rfl).symm.trans (hall rfl)
    exact (List.map_injective_iff.2 hinj) (Option.some.inj this)
  subst hqs
  have hscale : (scaleOf (periodicArgs x samples).toArgs : Vec ℝ 1) = fun _ => 1 := by
    funext c
    show (1 : ℝ) * (((if 1 = 0 then -1 else 1 : ℝ) - (if 0 = 0 then -1 else 1 : ℝ)) / 2) = 1
    norm_num
  have hmem : ∀ (k : Nat) (q : Vec ℝ 1), qs'[k]? = some q → q = (fun _ => x) ∨ q = (fun _ => -x) := by
    intro k
    induction k with
    | zero =>
      intro q hq
      have hf : point q = _ := hrun.first q hq rfl
      left
      funext j
      exact Val.fin.inj (congrFun hf j)
    | succ k ih =>
      intro q hq
      have hlt : k < qs'.length := by
        have := (List.getElem?_eq_some_iff.1 hq).1
        omega
      have hk : qs'[k]? = some qs'[k] := List.getElem?_eq_getElem hlt
      have hstep := h3 k _ _ hk hq
      dsimp only at hstep
      rw [hscale] at hstep
      have hper := C95_hmc_period hfd qs'[k] (ω := (fun c => normal R (genAt R 1 true (genStart R (periodicArgs x samples).toArgs g) k) c,
        uniform R (genAt R 1 true (genStart R (periodicArgs x samples).toArgs g) k) 1)) (hR.rand_nonneg _) (hR.rand_lt_one _)
      have hq' : q = -qs'[k] := hstep.trans hper
      rcases ih _ hk with h | h
      · right; rw [hq', h]; rfl
      · left; rw [hq', h]; funext j; exact neg_neg x
  refine ⟨o, qs'.map point, ho, h1 rfl, ?_, ?_⟩
  · have h2 : (qs'.length : Int) = samples + 1 := h2
    rw [List.length_map]
    omega
  · intro y hy
    obtain ⟨q, hq, rfl⟩ := List.mem_map.1 hy
    obtain ⟨k, hk⟩ := List.getElem?_of_mem hq
    rcases hmem k q hk with h | h
    · left; rw [h]; rfl
    · right; rw [h]; rfl

/-- So the probability of reaching anything else is zero, for any number of iterations. -/
theorem C95_hmc_kernel_violated {n : Nat} {h : ℝ} (hh : h ≠ 0) (B : Set (Vec ℝ n)) :
    ∀ (m : Nat) (q : Vec ℝ n), q ∉ B → -q ∉ B →
      reach ((gauss n).prod unifLaw) B (List.replicate m (hamiltonianStep (fun x : Vec ℝ n => ∑ j, x j ^ 2)
        (centralGradient (fun x : Vec ℝ n => ∑ j, x j ^ 2) h) (fun _ => 1) 2)) q = 0 := by
  intro m
  induction m with
  | zero => intro q hq _; exact Set.indicator_of_notMem hq _
  | succ m ih =>
    intro q hq hq'
    rw [List.replicate_succ]
    show ∫⁻ ω, _ ∂_ = 0
    have hae : ∀ᵐ ω ∂((gauss n).prod unifLaw), ω.2 ∈ Set.Ico (0 : ℝ) 1 := by
      unfold unifLaw
      exact Measure.quasiMeasurePreserving_snd.ae (ae_restrict_mem measurableSet_Ico)
    refine (lintegral_congr_ae (hae.mono fun ω hω => ?_)).trans lintegral_zero
    rw [C95_hmc_period hh q hω.1 hω.2]
    exact ih _ hq' (by rwa [neg_neg])

/-! ## 'cmaes' and 'vdcma' -/

section Gaussian
open Evo
variable {σ : Type} {p n : Nat} {Q : Evo.Par ℝ n} {c : Cfg} {m x : Vec ℝ n} {sigma : ℝ} {g : σ}

theorem gauss_sample_pos {A : Matrix (Fin n) (Fin n) ℝ} (hA : A.det ≠ 0) (m : Vec ℝ n) {s : ℝ} (hs : s ≠ 0)
    {B : Set (Vec ℝ n)} (hB : MeasurableSet B) (hv : 0 < volume B) :
    0 < gauss n {z | (fun j => m j + s * A.mulVec z j) ∈ B} := by
  have hd : (s • A).det ≠ 0 := by
    rw [Matrix.det_smul]
    exact mul_ne_zero (pow_ne_zero _ hs) hA
  have h1 := gauss_affine_pos hd m hB (pos_iff_ne_zero.1 hv)
  rw [pos_iff_ne_zero]
  have : ∀ z : Vec ℝ n, (fun j => m j + (s • A).mulVec z j) = fun j => m j + s * A.mulVec z j := by
    intro z
    funext j
    rw [Matrix.smul_mulVec]
    rfl
  simpa only [this] using h1

/-- Every point of every generation of 'cmaes' is `xmean + sigma * A z` for a standard normal `z`, and would be in a given set of
positive volume (of standardised points, before clipping) with positive probability. -/
theorem C95_cmaes {P : CMAES.Par σ ℝ p n} (he : IsEigh P.eigh) (hn : 1 ≤ n) (hmu : 1 ≤ P.mu) (hs : 0 < sigma)
    {L : St (CMAES.State σ ℝ n) ℝ p n} (h : Reach Q (CMAES.gauss P) c (CMAES.start m x sigma g) L) :
    ∃ A : Matrix (Fin n) (Fin n) ℝ,
      (∃ s', (CMAES.gauss P).sample L.s = .ok
        (fun i j => L.s.xmean j + L.s.sigma * (A.mulVec ((drawMat P.R.randn p n L.s.rng).1 i)) j, s')) ∧
      ∀ B, MeasurableSet B → 0 < volume B → 0 < gauss n {z | (fun j => L.s.xmean j + L.s.sigma * A.mulVec z j) ∈ B} := by
  obtain ⟨A, L0, -, hA, -, -, hw, hsam⟩ := Props.C65_cmaes he hn hmu h
  refine ⟨A, hsam, fun B hB hv => gauss_sample_pos ?_ _ (Props.C36_loop hn hmu hs h).2.2.2.ne' hB hv⟩
  intro h0
  have h1 := congrArg Matrix.det hw
  rw [← hA, Matrix.det_mul, Matrix.det_mul, Matrix.det_mul, h0] at h1
  simp at h1

/-- The same for 'vdcma', for the points that are not injected. -/
theorem C95_vdcma {P : VDCMA.Par σ ℝ p n} {L : St (VDCMA.State σ ℝ p n) ℝ p n} (hs : 0 < sigma)
    (hv : ∃ j, (VDCMA.start P.R m x sigma g : VDCMA.State σ ℝ p n).vvec j ≠ 0)
    (h : Reach Q (VDCMA.gauss P) c (VDCMA.start P.R m x sigma g) L) {a : Pop ℝ p n × VDCMA.State σ ℝ p n}
    (ha : (VDCMA.gauss P).sample L.s = .ok a) :
    ∃ A : Matrix (Fin n) (Fin n) ℝ,
      (∀ i : Fin p, L.it = 0 ∨ 2 ≤ i.val → ∀ j,
        a.1 i j = L.s.xmean j + L.s.sigma * (A.mulVec ((drawMat P.R.randn p n L.s.rng).1 i)) j) ∧
      ∀ B, MeasurableSet B → 0 < volume B → 0 < gauss n {z | (fun j => L.s.xmean j + L.s.sigma * A.mulVec z j) ∈ B} := by
  obtain ⟨⟨A, hA, hsam⟩, -⟩ := Props.C65_vdcma h ha
  obtain ⟨-, -, hsig, -, hpos, -⟩ := Props.C41_loop hs hv h
  refine ⟨A, hsam, fun B hB hv => gauss_sample_pos ?_ _ hsig.ne' hB hv⟩
  intro h0
  have h1 : (covVD L.s.dvec L.s.vvec).det = 0 := by rw [← hA, Matrix.det_mul, h0, zero_mul]
  obtain ⟨v, hv0, hv1⟩ := Matrix.exists_mulVec_eq_zero_iff.2 h1
  obtain ⟨i, hi⟩ := Function.ne_iff.1 hv0
  have h2 := hpos v ⟨i, hi⟩
  have h3 : quad (covVD L.s.dvec L.s.vvec) v = 0 := by
    unfold quad
    refine Finset.sum_eq_zero fun i _ => ?_
    have := congrFun hv1 i
    have h4 : ∑ j, covVD L.s.dvec L.s.vvec i j * v j = 0 := this
    simp only [mul_assoc]
    rw [← Finset.mul_sum, h4, mul_zero]
  rw [h3] at h2
  exact lt_irrefl _ h2

end Gaussian

end Stochopy
