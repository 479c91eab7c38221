import Verif.Lemmas.Kernel
import Verif.Props.Chains
import Verif.Model.NA
import Mathlib.Algebra.BigOperators.Field

/-!
# C45, C50, C53, C58: detailed balance, the leap-frog integrator, finite differences, coordinate changes
-/

set_option linter.unusedSectionVars false

namespace Stochopy
open Spec Sampling MeasureTheory Concrete

/-! ## C45 -/

section C45
variable {σ : Type} {R : Rng σ ℝ} {fuel : Nat} {g : σ}

/-- The acceptance test of both samplers, for finite energies: the proposal is accepted iff the uniform number is below
`exp (old - new)`. -/
theorem C45_test (a b : ℝ) {u : ℝ} (h0 : 0 ≤ u) (h1 : u < 1) :
    metropolis (Val.fin a - Val.fin b) u = true ↔ u < Real.exp (a - b) := by
  rw [Val.fin_sub]
  exact metropolis_exp h0 h1

/-- A proposal that is not worse is always accepted. -/
theorem C45_downhill {a b : ℝ} (h : b ≤ a) {u : ℝ} (h0 : 0 ≤ u) (h1 : u < 1) :
    metropolis (Val.fin a - Val.fin b) u = true :=
  (C45_test a b h0 h1).2 (lt_of_lt_of_le h1 (Real.one_le_exp (sub_nonneg.2 h)))

/-- The probability of acceptance. -/
theorem C45_probability (a b : ℝ) :
    volume {u : ℝ | u ∈ Set.Ico 0 1 ∧ metropolis (Val.fin a - Val.fin b) u = true} =
      ENNReal.ofReal (min 1 (Real.exp (a - b))) := by
  have h : {u : ℝ | u ∈ Set.Ico 0 1 ∧ metropolis (Val.fin a - Val.fin b) u = true} =
      Set.Ico 0 (min 1 (Real.exp (a - b))) := by
    ext u
    simp only [Set.mem_ofPred_eq, Set.mem_Ico, lt_min_iff]
    constructor
    · rintro ⟨⟨h0, h1⟩, h2⟩
      exact ⟨h0, h1, (C45_test a b h0 h1).1 h2⟩
    · rintro ⟨h0, h1, h2⟩
      exact ⟨⟨h0, h1⟩, (C45_test a b h0 h1).2 h2⟩
  rw [h, Real.volume_Ico, sub_zero]

/-- Without constraints the samples of 'mcmc' are obtained by iterating `walkStep` over blocks, with numbers from the
generator. -/
theorem C45_mcmc (hR : R.Ok) {a : MCMC.Args ℝ} {o : Sampling.Output σ ℝ a.ndim} {fn : Vec (Val ℝ) a.ndim → Val ℝ}
    (hfn : a.fn = some fn) {φ : Vec ℝ a.ndim → ℝ} (hφ : ∀ x, fn (point x) = .fin (φ x))
    (hc : a.constraints ≠ some "Reject") (h : (MCMC.sample R fuel a g).1 = .ok o) :
    ∃ qs : List (Vec ℝ a.ndim), (a.returnAll = true → o.xall = some (qs.map point)) ∧ (qs.length : Int) = a.maxiter ∧
      ∀ k q q', qs[k]? = some q → qs[k + 1]? = some q' →
        let per := blockSize a.perc a.ndim
        let gk := genAt R per true (genStart R a.toArgs g) k
        q' = walkStep φ (scaleOf a.toArgs) per (k % blockCount a.ndim per) q
          (fun c => normal R gk (c.val % per), uniform R gk per) := by
  obtain ⟨xs, ms, s, x1, hrun, rfl, rfl, hI, _, _, _, _, q1, hq1⟩ := MCMC.run_of_ok_fin hR hfn h
  have hdec : (!decide (a.constraints = some "Reject")) = true := by simpa using hc
  -- one move from a finite point
  have hmove : ∀ k m q, ms[k]? = some m → m.old = point q →
      let per := blockSize a.perc a.ndim
      let gk := genAt R per true (genStart R a.toArgs g) k
      m.next = point (walkStep φ (scaleOf a.toArgs) per (k % blockCount a.ndim per) q
          (fun c => normal R gk (c.val % per), uniform R gk per)) := by
    intro k m q hk hq per gk
    have hp := hrun.proposal k m hk
    have ht := hrun.test k m hk
    rw [hdec] at hp ht
    have hprop : m.prop = point (blockMove (scaleOf a.toArgs) per (k % blockCount a.ndim per) q
        fun c => normal R gk (c.val % per)) := by
      funext c
      rw [hp c, hq]
      show (if _ then point q c + _ else point q c) = Val.fin (if _ then _ else _)
      split_ifs
      · exact Val.fin_add _ _
      · rfl
    rw [hq, hprop, hφ, hφ, ← metropolis_iff (by exact hR.rand_nonneg _) (by exact hR.rand_lt_one _)] at ht
    unfold Move.next walkStep
    dsimp only
    by_cases hacc : m.accepted = true
    · rw [if_pos hacc, if_pos (ht.1 hacc).2, hprop]
    · rw [if_neg hacc, if_neg (fun hm => hacc (ht.2 ⟨hc, hm⟩)), hq]
  have hxs : ∀ (k : Nat) (x : Vec (Val ℝ) a.ndim), s.xs[k]? = some x → ∃ q, x = point q := by
    intro k
    induction k with
    | zero =>
      intro x hx
      rw [hI.first] at hx
      cases hx
      exact ⟨q1, hq1⟩
    | succ k ih =>
      intro x hx
      have hk : k < ms.length := by
        obtain ⟨hlt, _⟩ := List.getElem?_eq_some_iff.1 hx
        have := hI.links.1
        omega
      have hmk : ms[k]? = some ms[k] := List.getElem?_eq_getElem hk
      obtain ⟨h1, h2⟩ := hI.links.2 k _ hmk
      rw [hx] at h2
      cases h2
      obtain ⟨q, hq⟩ := ih _ h1
      exact ⟨_, hmove k _ q hmk hq⟩
  refine ⟨s.xs.map HMC.unpoint, ?_, ?_, ?_⟩
  · intro hr
    show Sampling.attach a.returnAll _ = _
    rw [hr, List.map_map]
    show some _ = some _
    congr 1
    refine (List.map_id _).symm.trans (List.map_congr_left fun x hx => ?_)
    obtain ⟨k, hk⟩ := List.getElem?_of_mem hx
    obtain ⟨q, rfl⟩ := hxs k x hk
    rfl
  · rw [List.length_map]; exact hrun.length
  · intro k q q' hq hq'
    rw [List.getElem?_map] at hq hq'
    obtain ⟨x, hx, rfl⟩ := Option.map_eq_some_iff.1 hq
    obtain ⟨x', hx', rfl⟩ := Option.map_eq_some_iff.1 hq'
    have hk : k < ms.length := by
      obtain ⟨hlt, _⟩ := List.getElem?_eq_some_iff.1 hx'
      have := hI.links.1
      omega
    have hmk : ms[k]? = some ms[k] := List.getElem?_eq_getElem hk
    obtain ⟨h1, h2⟩ := hI.links.2 k _ hmk
    rw [hx] at h1
    rw [hx'] at h2
    obtain ⟨q, rfl⟩ := hxs k x hx
    cases h2
    rw [hmove k _ q hmk (Option.some.inj h1).symm]
    rfl

/-- Detailed balance of every iteration of 'mcmc' with respect to `exp (-f)`, for any measurable objective. -/
theorem C45_mcmc_balance {n : Nat} {f : Vec ℝ n → ℝ} (hf : Measurable f) (scale : Vec ℝ n) (per b : Nat) :
    DetailedBalance ((gauss n).prod unifLaw) (walkStep f scale per b) fun x => Real.exp (- f x) :=
  walk_balance hf scale per b

/-- Without constraints the samples of 'hmc' are obtained by iterating `hamiltonianStep`, with numbers from the
generator. -/
theorem C45_hmc (hR : R.Ok) {a : HMC.Args ℝ} {o : Sampling.Output σ ℝ a.ndim} {fn : Vec (Val ℝ) a.ndim → Val ℝ}
    (hfn : a.fn = some fn) {φ : Vec ℝ a.ndim → ℝ} (hφ : ∀ x, fn (point x) = .fin (φ x)) (hh : a.fdStep ≠ 0)
    (hj : a.jac = none) (hc : a.constraints ≠ some "Reject") (h : (HMC.sample R a g).1 = .ok o) :
    ∃ qs : List (Vec ℝ a.ndim), (a.returnAll = true → o.xall = some (qs.map point)) ∧ (qs.length : Int) = a.maxiter ∧
      ∀ k q q', qs[k]? = some q → qs[k + 1]? = some q' →
        let gk := genAt R a.ndim true (genStart R a.toArgs g) k
        q' = hamiltonianStep φ (centralGradient φ a.fdStep) (scaleOf a.toArgs) (a.nleap.toNat + 1) q
          (fun c => normal R gk c, uniform R gk a.ndim) := by
  obtain ⟨qs, ms, hrun, hall, _⟩ := HMC.finite_run hR hfn hφ hh hj h
  have hdec : (!decide (a.constraints = some "Reject")) = true := by simpa using hc
  refine ⟨qs, hall, hrun.length, ?_⟩
  intro k q q' hq hq' gk
  have hk : k < ms.length := by
    obtain ⟨hlt, _⟩ := List.getElem?_eq_some_iff.1 hq'
    have := hrun.links.1
    omega
  have hmk : ms[k]? = some ms[k] := List.getElem?_eq_getElem hk
  obtain ⟨h1, h2⟩ := hrun.links.2 k _ hmk
  obtain ⟨hp, ht⟩ := hrun.proposal k _ hmk
  rw [hdec] at hp ht
  rw [hq] at h1
  rw [hq'] at h2
  have h1' := (Option.some.inj h1).symm
  rw [h1'] at hp ht
  rw [← metropolis_iff (by exact hR.rand_nonneg _) (by exact hR.rand_lt_one _)] at ht
  rw [Option.some.inj h2]
  unfold Move.next hamiltonianStep
  dsimp only
  by_cases hacc : ms[k].accepted = true
  · rw [if_pos hacc, if_pos (ht.1 hacc).2, hp]
  · rw [if_neg hacc, if_neg (fun hm => hacc (ht.2 ⟨hc, hm⟩)), h1']

/-- Detailed balance of every iteration of 'hmc' with respect to `exp (-f)`, for any measurable objective and any
measurable approximation of its gradient. -/
theorem C45_hmc_balance {n : Nat} {f : Vec ℝ n → ℝ} (hf : Measurable f) {γ : Vec ℝ n → Vec ℝ n} (hγ : Measurable γ)
    (ε : Vec ℝ n) (L : Nat) :
    DetailedBalance ((gauss n).prod unifLaw) (hamiltonianStep f γ ε L) fun x => Real.exp (- f x) :=
  hamiltonian_balance hf hγ ε L

/-- The finite difference gradient of a measurable objective is measurable. -/
theorem C45_hmc_gradient {n : Nat} {f : Vec ℝ n → ℝ} (hf : Measurable f) (h : ℝ) : Measurable (centralGradient f h) := by
  refine measurable_pi_lambda _ fun j => ?_
  have hu : ∀ t : ℝ, Measurable fun x : Vec ℝ n => Function.update x j (x j + t) := by
    intro t
    refine measurable_pi_lambda _ fun i => ?_
    by_cases hi : i = j
    · subst hi
      simp only [Function.update_self]
      exact Measurable.add_const (f := fun x : Vec ℝ n => x i) (measurable_pi_apply i) t
    · simp only [Function.update_of_ne hi]
      exact measurable_pi_apply i
  have h2 := hu (-h)
  simp only [← sub_eq_add_neg] at h2
  exact ((hf.comp (hu h)).sub (hf.comp h2)).div_const _

/-- Balance gives stationarity: one iteration preserves the target distribution. -/
theorem C45_stationary {n : Nat} {Ω : Type} [MeasurableSpace Ω] {P : Measure Ω} [IsProbabilityMeasure P]
    {next : Vec ℝ n → Ω → Vec ℝ n} {w : Vec ℝ n → ℝ} (h : DetailedBalance P next w) {B : Set (Vec ℝ n)}
    (hB : MeasurableSet B) :
    ∫⁻ x, ENNReal.ofReal (w x) * P {ω | next x ω ∈ B} = ∫⁻ x in B, ENNReal.ofReal (w x) := by
  have := h Set.univ B MeasurableSet.univ hB
  rw [Measure.restrict_univ] at this
  rw [this]
  refine lintegral_congr fun x => ?_
  have : {ω | next x ω ∈ Set.univ} = Set.univ := by ext; simp
  rw [this, measure_univ, mul_one]

/-- A generator with real numbers. -/
noncomputable def realRng : Rng Nat ℝ where
  seed s := s.natAbs
  rand g := (((g % 7 : Nat) : ℝ) / 7, g + 1)
  randn g := (((g % 5 : Nat) : ℝ) - 2, g + 1)
  randint n g := (g % n, g + 1)
  perm _ g := (1, g + 1)

theorem realRng_ok : realRng.Ok where
  rand_nonneg g := div_nonneg (Nat.cast_nonneg _) (by norm_num)
  rand_lt_one g := by
    show ((g % 7 : Nat) : ℝ) / 7 < 1
    rw [div_lt_one (by norm_num)]
    exact_mod_cast Nat.mod_lt _ (by norm_num)
  randint_lt n g h := Nat.mod_lt _ h

/-- A real chain of 5 samples for the sum of squares. -/
noncomputable def realArgs : MCMC.Args ℝ where
  bounds := { shape := [2, 2], get := fun l => if l.getD 1 0 = 0 then -1 else 1 }
  fn := some fun x : Vec (Val ℝ) 2 => x 0 * x 0 + x 1 * x 1
  x0 := none
  maxiter := 5
  stepsize := .scalar false (1 / 2)
  seed := none
  constraints := none
  returnAll := true
  callback := none
  perc := 1

/-- It returns, so the hypotheses of `C45_mcmc` are met. -/
example : (∃ o, (MCMC.sample realRng 10 realArgs 0).1 = .ok o) ∧ realArgs.constraints ≠ some "Reject" ∧
    ∀ x : Vec ℝ 2, (fun x : Vec (Val ℝ) 2 => x 0 * x 0 + x 1 * x 1) (point x) = .fin (x 0 * x 0 + x 1 * x 1) := by
  refine ⟨?_, by rintro ⟨⟩, fun x => rfl⟩
  refine (C49_mcmc_partial (K := ℝ) (R := realRng) (g := 0) (fuel := 10) (a := realArgs) realRng_ok ⟨⟨rfl, rfl, ?_, rfl, ?_, ?_⟩, ?_⟩ ?_ ?_).1.2 (Or.inl ?_)
  · rintro x ⟨⟩
  · rintro ⟨⟩
  · decide
  · exact ⟨zero_le_one, le_refl _⟩
  · decide
  · decide
  · show max 1 ⌊(1 : ℝ) * ((2 : Nat) : ℝ)⌋₊ ∣ 2
    rw [one_mul, Nat.floor_natCast]
    decide

/-- A Gaussian target. -/
example : DetailedBalance ((gauss 2).prod unifLaw)
    (hamiltonianStep (fun x : Vec ℝ 2 => x 0 ^ 2 + x 1 ^ 2) (centralGradient (fun x : Vec ℝ 2 => x 0 ^ 2 + x 1 ^ 2) 1)
      (fun _ => 1 / 10) 11) fun x : Vec ℝ 2 => Real.exp (-(x 0 ^ 2 + x 1 ^ 2)) := by
  have hf : Measurable fun x : Vec ℝ 2 => x 0 ^ 2 + x 1 ^ 2 :=
    ((measurable_pi_apply 0).pow_const 2).add ((measurable_pi_apply 1).pow_const 2)
  exact C45_hmc_balance hf (C45_hmc_gradient hf 1) _ _

end C45

/-! ## C50 -/

section C50
variable {K : Type} [Field K] [LinearOrder K] [IsStrictOrderedRing K] [NumFns K] {n : Nat}

/-- Reversibility of the integrator for any gradient with finite values: from the end point with the momentum reversed, it
comes back to the start with the momentum reversed. -/
theorem C50_hmc {G : HMC.Grad K n} {γ : Vec K n → Vec K n} (hG : ∀ x, ∃ ev, G (point x) = .ok (point (γ x), ev))
    (step : Vec K n) (nleap : Nat) (q p : Vec K n) :
    ∃ q' p' ev ev', HMC.leapfrog G step nleap (point q) (point p) = .ok (point q', point p', ev) ∧
      HMC.leapfrog G step nleap (point q') (point (fun j => - p' j)) = .ok (point q, point (fun j => - p j), ev') := by
  obtain ⟨ev, h1⟩ := HMC.leapfrog_fin (G := G) (γ := γ) hG step nleap q p
  obtain ⟨ev', h2⟩ := HMC.leapfrog_fin (G := G) (γ := γ) hG step nleap (HMC.leapK γ step nleap (q, p)).1
    (fun j => - (HMC.leapK γ step nleap (q, p)).2 j)
  refine ⟨_, _, ev, ev', h1, h2.trans ?_⟩
  have := HMC.leapK_rev γ step nleap (q, p)
  have h3 : HMC.leapK γ step nleap ((HMC.leapK γ step nleap (q, p)).1, fun j => - (HMC.leapK γ step nleap (q, p)).2 j) =
      HMC.flip (q, p) := this
  rw [h3]
  rfl

/-- The integrator preserves volume, for any measurable gradient. -/
theorem C50_hmc_volume {n : Nat} {G : HMC.Grad ℝ n} {γ : Vec ℝ n → Vec ℝ n} (hγ : Measurable γ)
    (hG : ∀ x, ∃ ev, G (point x) = .ok (point (γ x), ev)) (step : Vec ℝ n) (nleap : Nat) :
    ∃ Φ : Vec ℝ n × Vec ℝ n → Vec ℝ n × Vec ℝ n,
      (∀ q p, ∃ ev, HMC.leapfrog G step nleap (point q) (point p) = .ok (point (Φ (q, p)).1, point (Φ (q, p)).2, ev)) ∧
      MeasurePreserving Φ (volume.prod volume) (volume.prod volume) := by
  refine ⟨(verlet γ step)^[nleap + 1], ?_, (verlet_preserving hγ step).iterate _⟩
  intro q p
  obtain ⟨ev, h1⟩ := HMC.leapfrog_fin (G := G) (γ := γ) hG step nleap q p
  rw [HMC.leapK_eq] at h1
  exact ⟨ev, h1⟩

/-- The numerical gradient of a finite objective is such a gradient. -/
theorem C50_numerical {fn : Vec (Val K) n → Val K} {φ : Vec K n → K} (hφ : ∀ x, fn (point x) = .fin (φ x)) {h : K}
    (hh : h ≠ 0) (e : Bool) (x : Vec K n) :
    ∃ ev, HMC.gradOf fn none h e (point x) = .ok (point (centralGradient φ h x), ev) :=
  HMC.gradOf_fin hφ hh e x

end C50

/-! ## C53 -/

section C53
variable {K : Type} [Field K] [LinearOrder K] [IsStrictOrderedRing K] [NumFns K] {n : Nat}

/-- `numerical_gradient` is the central difference; the objective is called on the point moved by `h` forward and backward
in each coordinate, starting every time from the original point. -/
theorem C53_hmc {fn : Vec (Val K) n → Val K} {φ : Vec K n → K} (hφ : ∀ x, fn (point x) = .fin (φ x)) {h : K} (hh : h ≠ 0)
    (x : Vec K n) :
    (HMC.numericalGradient fn h (point x)).1 = point (fun j =>
      (φ (Function.update x j (x j + h)) - φ (Function.update x j (x j - h))) / (2 * h)) ∧
    (HMC.numericalGradient fn h (point x)).2 = (List.finRange n).flatMap fun j =>
      [point (Function.update x j (x j + h)), point (Function.update x j (x j - h))] := by
  constructor
  · obtain ⟨ev, he⟩ := HMC.gradOf_fin hφ hh false x
    have he' : (Except.ok (HMC.numericalGradient fn h (point x)) : Except PyErr _) = _ := he
    rw [Except.ok.inj he']
    rfl
  · rw [(HMC.numericalGradient_eq fn h (point x)).2]
    congr 1
    funext j
    have e : ∀ t : K, Function.update (point x) j (.fin t) = point (Function.update x j t) := by
      intro t
      funext i
      unfold point
      by_cases hi : i = j
      · subst hi; simp
      · simp [hi]
    show [Function.update (point x) j (.fin (x j) + .fin h), Function.update (point x) j (.fin (x j) - .fin h)] = _
    rw [Val.fin_add, Val.fin_sub, e, e]

/-- Exact for quadratic objectives: `∑ A i k x i x k + ∑ b i x i + c` has gradient `∑ (A j k + A k j) x k + b j`. -/
theorem C53_hmc_quadratic {fn : Vec (Val K) n → Val K} (A : Fin n → Fin n → K) (b : Fin n → K) (c : K)
    (hφ : ∀ x : Vec K n, fn (point x) = .fin ((∑ i, ∑ k, A i k * x i * x k) + (∑ i, b i * x i) + c)) {h : K} (hh : h ≠ 0)
    (x : Vec K n) :
    (HMC.numericalGradient fn h (point x)).1 = point (fun j => (∑ k, (A j k + A k j) * x k) + b j) := by
  rw [(C53_hmc hφ hh x).1]
  congr 1
  funext j
  have hup : ∀ t : K, Function.update x j (x j + t) = fun i => x i + (if i = j then t else 0) := by
    intro t
    funext i
    by_cases hi : i = j
    · subst hi; simp
    · simp [hi]
  have hup' : Function.update x j (x j - h) = fun i => x i + (if i = j then -h else 0) := by
    rw [sub_eq_add_neg]; exact hup _
  have hq : ∀ t : K, (∑ i, ∑ k, A i k * (x i + if i = j then t else 0) * (x k + if k = j then t else 0)) =
      (∑ i, ∑ k, A i k * x i * x k) + t * (∑ k, (A j k + A k j) * x k) + t * t * A j j := by
    intro t
    have : ∀ i k, A i k * (x i + if i = j then t else 0) * (x k + if k = j then t else 0) =
        A i k * x i * x k + (if i = j then t * (A i k * x k) else 0) + (if k = j then t * (A i k * x i) else 0) +
          (if i = j then (if k = j then t * t * A i k else 0) else 0) := by
      intro i k
      split_ifs <;> ring
    simp only [this, Finset.sum_add_distrib, Finset.sum_ite_eq', Finset.mem_univ, if_true]
    have hsw : (∑ i, ∑ k, if i = j then t * (A i k * x k) else 0) = ∑ k, t * (A j k * x k) := by
      rw [Finset.sum_comm]
      simp only [Finset.sum_ite_eq', Finset.mem_univ, if_true]
    have hdd : (∑ i, ∑ k, if i = j then (if k = j then t * t * A i k else 0) else 0) = t * t * A j j := by
      rw [Finset.sum_comm]
      simp only [Finset.sum_ite_eq', Finset.mem_univ, if_true]
    rw [hsw, hdd, Finset.mul_sum]
    simp only [add_mul, mul_add, Finset.sum_add_distrib]
    ring
  have hl : ∀ t : K, (∑ i, b i * (x i + if i = j then t else 0)) = (∑ i, b i * x i) + t * b j := by
    intro t
    have : ∀ i, b i * (x i + if i = j then t else 0) = b i * x i + (if i = j then t * b i else 0) := by
      intro i; split_ifs <;> ring
    simp only [this, Finset.sum_add_distrib, Finset.sum_ite_eq', Finset.mem_univ, if_true]
  rw [hup, hup']
  simp only [hq, hl]
  field_simp
  ring

/-- The bowl of the concrete chains is such an objective. -/
example (x : Vec ℚ 2) : bowl (point x) =
    .fin ((∑ i, ∑ k, (if i = k then (1 : ℚ) else 0) * x i * x k) + (∑ i : Fin 2, 0 * x i) + 0) := by
  show Val.fin (x 0 * x 0 + x 1 * x 1) = _
  congr 1
  simp [Fin.sum_univ_two]

end C53

/-! ## C58 -/

section C58
variable {K : Type} [Field K] [LinearOrder K] [IsStrictOrderedRing K] {n : Nat}

/-- Normalisation of 'na' is a bijection between the box and the unit box on coordinates of positive width. -/
theorem C58_na {lower upper : Vec K n} {j : Fin n} (hj : lower j < upper j) (x : Vec K n) :
    NA.unnormalize lower upper (NA.normalize lower upper x) j = x j ∧
    NA.normalize lower upper (NA.unnormalize lower upper x) j = x j ∧
    NA.normalize lower upper lower j = 0 ∧ NA.normalize lower upper upper j = 1 ∧
    (0 ≤ NA.normalize lower upper x j ↔ lower j ≤ x j) ∧ (NA.normalize lower upper x j ≤ 1 ↔ x j ≤ upper j) := by
  have hs : 0 < upper j - lower j := sub_pos.2 hj
  have hm : NA.spanMask lower upper j = true := decide_eq_true hs
  unfold NA.unnormalize NA.normalize
  simp only [hm, if_true]
  refine ⟨?_, ?_, ?_, ?_, ?_, ?_⟩
  · field_simp; ring
  · field_simp; ring
  · rw [sub_self, zero_div]
  · exact div_self hs.ne'
  · rw [le_div_iff₀ hs, zero_mul, sub_nonneg]
  · rw [div_le_one hs, sub_le_sub_iff_right]

/-- On coordinates of zero width both maps give the bound. -/
theorem C58_na_degenerate {lower upper : Vec K n} {j : Fin n} (hj : upper j ≤ lower j) (x : Vec K n) :
    NA.normalize lower upper x j = upper j ∧ NA.unnormalize lower upper x j = upper j := by
  have hm : NA.spanMask lower upper j = false := decide_eq_false (not_lt.2 (sub_nonpos.2 hj))
  unfold NA.unnormalize NA.normalize
  simp [hm]

/-- For instance the interval `[-2, 6]`. -/
example : NA.normalize (fun _ : Fin 1 => (-2 : ℚ)) (fun _ => 6) (fun _ => 0) 0 = 1 / 4 := by decide +kernel

end C58
end Stochopy
