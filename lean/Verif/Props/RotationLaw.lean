import Mathlib.Probability.Distributions.Gaussian.Multivariate
import Verif.Props.Rotation
import Verif.Props.Gaussian

/-! # C99: turned normal numbers are as likely, and concrete cases -/

namespace Stochopy.Props
open Evo Spec Matrix MeasureTheory ProbabilityTheory

/-- A fixed rotation does not change the law of a standard normal vector. -/
theorem normal_turn {n : Nat} {U : Matrix (Fin n) (Fin n) ℝ} (hU : Spec.Orthonormal U) :
    MeasurePreserving (fun z : Fin n → ℝ => U *ᵥ z) (Measure.pi fun _ => gaussianReal 0 1) (Measure.pi fun _ => gaussianReal 0 1) := by
  have hm : Measurable fun z : Fin n → ℝ => U *ᵥ z :=
    measurable_pi_lambda _ fun i => by
      show Measurable fun z : Fin n → ℝ => ∑ k, U i k * z k
      exact Finset.measurable_sum _ fun k _ => (measurable_pi_apply k).const_mul _
  refine ⟨hm, ?_⟩
  let v : Fin n → EuclideanSpace ℝ (Fin n) := fun k => WithLp.toLp 2 fun i => U i k
  have hv : _root_.Orthonormal ℝ v := by
    rw [orthonormal_iff_ite]
    intro i j
    have := hU j i
    rw [EuclideanSpace.inner_eq_star_dotProduct]
    show ∑ k, U k j * U k i = _
    rw [this]
    exact if_congr eq_comm rfl rfl
  let b : OrthonormalBasis (Fin n) ℝ (EuclideanSpace ℝ (Fin n)) :=
    OrthonormalBasis.mk hv (by
      have := hv.linearIndependent.span_eq_top_of_card_eq_finrank' (by simp)
      rw [this])
  have e1 := stdGaussian_eq_map_pi_orthonormalBasis b
  have e2 : (fun x : Fin n → ℝ => ∑ i, x i • b i) = fun x => WithLp.toLp 2 (U *ᵥ x) := by
    funext x
    ext j
    simp only [b, OrthonormalBasis.coe_mk, v]
    show (∑ i, x i • (WithLp.toLp 2 fun l => U l i : EuclideanSpace ℝ (Fin n))).ofLp j = ∑ k, U j k * x k
    rw [WithLp.ofLp_sum, Finset.sum_apply]
    exact Finset.sum_congr rfl fun k _ => mul_comm _ _
  rw [e2, ← map_pi_eq_stdGaussian] at e1
  have hof : Measurable (WithLp.ofLp : EuclideanSpace ℝ (Fin n) → Fin n → ℝ) := by fun_prop
  have hto : Measurable (WithLp.toLp 2 : (Fin n → ℝ) → EuclideanSpace ℝ (Fin n)) := by fun_prop
  have e3 := congrArg (Measure.map WithLp.ofLp) e1
  rw [Measure.map_map hof hto, Measure.map_map hof (show Measurable fun x => WithLp.toLp 2 (U *ᵥ x) from hto.comp hm)] at e3
  have e4 : (WithLp.ofLp ∘ WithLp.toLp 2 : (Fin n → ℝ) → Fin n → ℝ) = id := rfl
  rw [e4, Measure.map_id] at e3
  exact e3.symm

/-- C99: the numbers of a generation, turned by a rotation that is fixed before they are drawn, are as likely as the numbers. -/
theorem C99_normals {p n : Nat} {U : Matrix (Fin n) (Fin n) ℝ} (hU : Spec.Orthonormal U) :
    Measure.map (fun (z : Fin p → Vec ℝ n) i => U *ᵥ z i) (Measure.pi fun _ => Measure.pi fun _ => gaussianReal 0 1) =
      Measure.pi fun _ => Measure.pi fun _ => gaussianReal 0 1 :=
  (measurePreserving_pi (f := fun (_ : Fin p) (z : Fin n → ℝ) => U *ᵥ z) _ _ fun _ => normal_turn hU).map_eq

/-! ## Concrete cases -/

/-- A generator that reads its normal numbers from `t`. -/
def tapeRng (t : Nat → ℝ) : Rng Nat ℝ where
  seed _ := 0
  rand g := (0, g)
  randn g := (t g, g + 1)
  randint _ g := (0, g)
  perm _ g := (Equiv.refl _, g)

theorem tape_normals (t : Nat → ℝ) (p n k : Nat) (i : Fin p) (j : Fin n) :
    (tapeRng t).normals p n 0 k i j = t (k * (p * n) + i.val * n + j.val) := by
  have e1 : ∀ m g : Nat, (fun g => ((tapeRng t).randn g).2)^[m] g = g + m := fun m => by
    induction m with
    | zero => intro g; rfl
    | succ m ih => intro g; rw [Function.iterate_succ_apply', ih]; rfl
  have e2 : ∀ m g : Nat, (fun g => (drawVec (tapeRng t).randn n g).2)^[m] g = g + m * n := fun m => by
    induction m with
    | zero => intro g; simp
    | succ m ih =>
      intro g
      rw [Function.iterate_succ_apply', ih]
      show (fun g => ((tapeRng t).randn g).2)^[n] _ = _
      rw [e1]; ring
  have e3 : ∀ m g : Nat, (fun g => (drawMat (tapeRng t).randn p n g).2)^[m] g = g + m * (p * n) := fun m => by
    induction m with
    | zero => intro g; simp
    | succ m ih =>
      intro g
      rw [Function.iterate_succ_apply', ih]
      show (fun g => (drawVec (tapeRng t).randn n g).2)^[p] _ = _
      rw [e2]; ring
  show t ((fun g => ((tapeRng t).randn g).2)^[j.val] ((fun g => (drawVec (tapeRng t).randn n g).2)^[i.val]
    ((fun g => (drawMat (tapeRng t).randn p n g).2)^[k] 0))) = _
  rw [e3, e2, e1, Nat.zero_add]

/-- Turned numbers can be given to the second run, whatever the first one draws. -/
theorem exists_turned {p n : Nat} (hp : 0 < p) (hn : 0 < n) (U : List (Fin p → Vec ℝ n) → Matrix (Fin n) (Fin n) ℝ)
    (z : Nat → Fin p → Vec ℝ n) : ∃ t, TurnedBy U z ((tapeRng t).normals p n 0) := by
  refine ⟨fun m => (U ((List.range (m / (p * n))).map z) *ᵥ z (m / (p * n)) ⟨m / n % p, Nat.mod_lt _ hp⟩) ⟨m % n, Nat.mod_lt _ hn⟩, ?_⟩
  intro k i
  funext j
  rw [tape_normals]
  have hj := j.isLt
  have hi := i.isLt
  have h0 : i.val * n + j.val < p * n := by nlinarith
  have h1 : (k * (p * n) + i.val * n + j.val) / (p * n) = k := by
    rw [Nat.add_assoc, Nat.add_comm, Nat.add_mul_div_right _ _ (by positivity), Nat.div_eq_of_lt h0, Nat.zero_add]
  have h2 : (k * (p * n) + i.val * n + j.val) / n % p = i.val := by
    rw [show k * (p * n) + i.val * n + j.val = j.val + (i.val + p * k) * n by ring, Nat.add_mul_div_right _ _ hn, Nat.div_eq_of_lt hj,
      Nat.zero_add, Nat.add_mul_mod_self_left, Nat.mod_eq_of_lt hi]
  have h3 : (k * (p * n) + i.val * n + j.val) % n = j.val := by
    rw [show k * (p * n) + i.val * n + j.val = j.val + n * (k * p + i.val) by ring, Nat.add_mul_mod_self_left, Nat.mod_eq_of_lt hj]
  simp only [h1, h2, h3]

/-- A linear objective on the square, started away from its middle. -/
noncomputable def slopeArgs : Args ℝ :=
  { bounds := { shape := [2, 2], get := fun l => if l.getD 1 0 = 0 then -1 else 1 }, fn := some fun x => .fin (∑ j, x j ^ 2 + x ⟨0, by decide⟩),
    x0 := some { shape := [2], get := fun l => if l.getD 0 0 = 0 then 1 / 2 else 1 / 4 },
    maxiter := 7, popsize := 10, seed := none, xtol := 1 / 100, ftol := .fin (-10), workers := 1, backend := none,
    returnAll := true, verbosity := 1, callback := some true, sigma := 1 / 10, muperc := 1 / 2, constraints := none }

/-- A rotation by an angle with cosine 3/5. -/
noncomputable def quarter : Matrix (Fin 2) (Fin 2) ℝ := !![3 / 5, -4 / 5; 4 / 5, 3 / 5]

theorem quarter_orth : Spec.Orthonormal quarter := by
  intro i j
  fin_cases i <;> fin_cases j <;> norm_num [quarter, Fin.sum_univ_two]

theorem slope_run {σ : Type} (R : Rng σ ℝ) {eigh : CMAES.Eigh ℝ} (he : IsEigh eigh) (a : Args ℝ) (ha : a = slopeArgs ∨ a = slopeArgs.turn quarter)
    (junk : Vec ℝ a.ndim) (g : σ) : ∃ o, CMAES.minimize Concrete.env R stableArgsort eigh 7 a junk g = .ok o := by
  have key : ∀ a : Args ℝ, a.bounds = slopeArgs.bounds → a.popsize = 10 → a.muperc = 1 / 2 → a.maxiter = 7 → a.constraints = none →
      a.sigma = 1 / 10 → a.fn.isSome = true → a.workers = 1 → a.verbosity = 1 → a.callback = some true → a.returnAll = true → a.backend = none → 
      (∃ x, a.x0 = some x ∧ x.shape = [2]) → ∀ (junk : Vec ℝ a.ndim) (g : σ),
      ∃ o, CMAES.minimize Concrete.env R stableArgsort eigh 7 a junk g = .ok o := by
    rintro ⟨⟨bounds, fn, x0, maxiter, popsize, seed, xtol, ftol, workers, backend, returnAll, verbosity, callback⟩, sigma, muperc, constraints⟩
      h1 h2 h3 h4 h5 h6 h7 h8 h9 h10 h11 h12 ⟨x, hx, hs⟩ junk g
    cases h1; cases h2; cases h3; cases h4; cases h5; cases h6; cases h8; cases h9; cases h10; cases h11; cases h12; cases hx
    refine (C66_cmaes Concrete.env_ok isArgsort_stable he (by norm_num) (le_refl _) ⟨?_, ?_, ?_, ?_⟩ ?_ ?_).2 ?_
    · show 0 < 2; norm_num
    · show (0 : Int) < 10; norm_num
    · show (1 : ℝ) ≤ 1 / 2 * ((10 : Int) : ℝ); norm_num
    · intro _ j
      show (-1 : ℝ) ≠ 1
      norm_num
    · show (1 / 2 : ℝ) * ((10 : Int) : ℝ) < (((2 : Nat) : ℝ) + 13 / 10) ^ 2; norm_num
    · intro h; cases h
    · refine ⟨h7, rfl, fun y hy => ?_, ?_, ?_, nofun, ?_, ?_, fun _ => Or.inl (le_refl _), nofun⟩
      · cases hy; exact hs
      · show (0 : ℝ) < 1 / 10; norm_num
      · show (0 : ℝ) < 1 / 2 ∧ (1 / 2 : ℝ) ≤ 1; norm_num
      · show none ∈ _; simp
      · show (1 : Int) ≤ 7; norm_num
  rcases ha with rfl | rfl
  · exact key slopeArgs rfl rfl rfl rfl rfl rfl rfl rfl rfl rfl rfl rfl ⟨_, rfl, rfl⟩ junk g
  · exact key (slopeArgs.turn quarter) rfl rfl rfl rfl rfl rfl rfl rfl rfl rfl rfl rfl ⟨_, rfl, rfl⟩ junk g

/-- The hypotheses of `C99_cmaes` are met: for every generator both runs return and the numbers can be turned. -/
example : ∃ eigh : CMAES.Eigh ℝ, IsEigh eigh ∧ ∀ g : Nat, ∃ (t : Nat → ℝ) (o o' : Output Nat ℝ 10 2),
    CMAES.minimize Concrete.env realGen stableArgsort eigh 7 slopeArgs (fun _ => 0) g = .ok o ∧
    CMAES.minimize Concrete.env (tapeRng t) stableArgsort eigh 7 (slopeArgs.turn quarter) (fun _ => 0) (0 : Nat) = .ok o' ∧
    SameTurned (turn (fun _ => -1) (fun _ => 1) quarter) o o' := by
  obtain ⟨eigh, he⟩ := exists_isEigh
  refine ⟨eigh, he, fun g => ?_⟩
  obtain ⟨U, -, hU⟩ := C99_cmaes Concrete.env_ok (srt := stableArgsort) he (a := slopeArgs) quarter_orth rfl rfl
  obtain ⟨t, ht⟩ := exists_turned (p := 10) (n := 2) (by norm_num) (by norm_num) U (realGen.normals 10 2 g)
  obtain ⟨o, ho⟩ := slope_run realGen he slopeArgs (Or.inl rfl) (fun _ => 0) g
  obtain ⟨o', ho'⟩ := slope_run (tapeRng t) he (slopeArgs.turn quarter) (Or.inr rfl) (fun _ => 0) (0 : Nat)
  exact ⟨t, o, o', ho, ho', hU realGen (tapeRng t) 7 7 _ _ g (0 : Nat) o o' ht ho ho'⟩

/-- Turning moves the points. -/
example : turn (fun _ => -1) (fun _ => 1) quarter (fun _ => 1) = ![-1 / 5, 7 / 5] := by
  funext j
  fin_cases j <;> norm_num [turn, quarter, Fin.sum_univ_two]

end Stochopy.Props
