import Verif.Lemmas.Neutral
import Verif.Lemmas.CMAES
import Verif.Lemmas.VDCMA
import Mathlib.MeasureTheory.Integral.Bochner.SumMeasure

/-!
# C68: the adaptation is unbiased when the selected steps carry no information

If the objective does not prefer any of the sampled points, the selected steps are independent draws with mean zero and the
covariance matrix `C` of the model.  Then the mean stays where it is on average, the evolution paths keep the covariance they
are meant to have, and the covariance matrix stays `C` on average.
-/

set_option linter.unusedSectionVars false

namespace Stochopy.Props
open Evo Spec MeasureTheory

variable {Ω σ : Type} [MeasurableSpace Ω] {P : Measure Ω} [IsProbabilityMeasure P] {p n : Nat}

/-- The selected steps, in units of `sigma`. -/
noncomputable def selected {mu : Nat} (h : mu ≤ p) (arx : Ω → Pop ℝ p n) (order : Ω → Equiv.Perm (Fin p)) (m : Vec ℝ n) (sigma : ℝ)
    (ω : Ω) (k : Fin mu) : Vec ℝ n := fun j => (arx ω (order ω (Fin.castLE h k)) j - m j) / sigma

theorem recombine_selected {mu : Nat} (h : mu ≤ p) (hmu : 0 < mu) (arx : Ω → Pop ℝ p n) (order : Ω → Equiv.Perm (Fin p)) (m : Vec ℝ n)
    {sigma : ℝ} (hs : 0 < sigma) (ω : Ω) (j : Fin n) :
    recombine h (weights mu) (order ω) (arx ω) j = m j + sigma * ∑ k, weights mu k * selected h arx order m sigma ω k j := by
  have h1 : m j = ∑ k : Fin mu, weights (K := ℝ) mu k * m j := by rw [← Finset.sum_mul, weights_sum hmu, one_mul]
  unfold recombine
  rw [ArrayOps.dot_eq, h1, Finset.mul_sum, ← Finset.sum_add_distrib]
  refine Finset.sum_congr rfl fun k _ => ?_
  unfold selected
  field_simp
  ring

/-- Both evolution paths: `(1 - c) x + √(c (2 - c) mueff) ∑ w y`. -/
theorem path_cov {mu : Nat} (hmu : 0 < mu) {c : ℝ} (h0 : 0 ≤ c) (h1 : c ≤ 2) {X : Ω → Vec ℝ n} {y : Ω → Fin mu → Vec ℝ n}
    {M : Matrix (Fin n) (Fin n) ℝ} (hX : Cross P X X M) (hy : NeutralSteps P M y) (h : Unrelated P X y) :
    Cross P (fun ω j => (1 - c) * X ω j + NumFns.sqrt (c * (2 - c) * mueff mu) * ∑ k, weights mu k * y ω k j)
      (fun ω j => (1 - c) * X ω j + NumFns.sqrt (c * (2 - c) * mueff mu) * ∑ k, weights mu k * y ω k j) M := by
  have := Cross.comb (1 - c) (NumFns.sqrt (c * (2 - c) * mueff mu)) hX (hy.wsum (weights mu)) (h.wsum (weights mu))
  convert this using 1
  have hq : (NumFns.sqrt (c * (2 - c) * mueff mu) : ℝ) ^ 2 = c * (2 - c) * mueff mu :=
    Real.sq_sqrt (mul_nonneg (mul_nonneg h0 (by linarith)) (mueff_pos hmu).le)
  rw [hq, mueff_eq hmu, smul_smul, ← add_smul]
  have hp := sum_sq_pos (K := ℝ) hmu
  have : (1 - c) ^ 2 + c * (2 - c) * (1 / ∑ k, weights (K := ℝ) mu k ^ 2) * ∑ k, weights (K := ℝ) mu k ^ 2 = 1 := by
    field_simp
    ring
  rw [this, one_smul]

variable {Q : CMAES.Par σ ℝ p n} {nfev : Nat} {arx : Ω → Pop ℝ p n} {order : Ω → Equiv.Perm (Fin p)} {s : Ω → CMAES.State σ ℝ n}
  {m : Vec ℝ n} {sigma : ℝ} {C W : Matrix (Fin n) (Fin n) ℝ}

/-- `cmaes`: `s` is a state whose mean, step size and covariance are known and whose paths are random; `W` is `invsqrtC`. -/
theorem C68_cmaes (hn : 0 < n) (hmu : 0 < Q.mu) (hs : 0 < sigma)
    (hm : ∀ ω, (s ω).xmean = m) (hsg : ∀ ω, (s ω).sigma = sigma) (hC : ∀ ω, (s ω).C = C) (hW : ∀ ω, (s ω).invsqrtC = W)
    (hWC : W * C * W.transpose = 1)
    (hy : NeutralSteps P C (selected Q.hmu arx order m sigma))
    (hps : Cross P (fun ω => (s ω).ps) (fun ω => (s ω).ps) 1)
    (hps' : Unrelated P (fun ω => (s ω).ps) (selected Q.hmu arx order m sigma))
    (hpc : Cross P (fun ω => (s ω).pc) (fun ω => (s ω).pc) C)
    (hpc' : Unrelated P (fun ω => (s ω).pc) (selected Q.hmu arx order m sigma))
    {s' : Ω → CMAES.State σ ℝ n} (h : ∀ ω, s' ω = CMAES.advance Q nfev (arx ω) (order ω) (s ω)) :
    (∀ j, HasMean P (fun ω => (s' ω).xmean j) (m j)) ∧
    Cross P (fun ω => (s' ω).ps) (fun ω => (s' ω).ps) 1 ∧
    ((∀ ω, CMAES.hsig n p (mueff Q.mu) nfev (s' ω).ps = true) → Cross P (fun ω => (s' ω).pc) (fun ω => (s' ω).pc) C) ∧
    (∀ b, (∀ ω, CMAES.hsig n p (mueff Q.mu) nfev (s' ω).ps = b) → ∀ i j, HasMean P (fun ω => (s' ω).C i j) (C i j)) := by
  obtain rfl : s' = fun ω => CMAES.advance Q nfev (arx ω) (order ω) (s ω) := funext h
  have hme := one_le_mueff (K := ℝ) hmu
  have cs0 := CMAES.cs_pos (n := n) hme
  have cs1 := CMAES.cs_lt_one (n := n) hme
  have cc0 := cc_pos hn hme
  have cc1 := cc_lt_one hn hme
  have hx : ∀ ω j, (CMAES.advance Q nfev (arx ω) (order ω) (s ω)).xmean j =
      m j + sigma * ∑ k, weights Q.mu k * selected Q.hmu arx order m sigma ω k j := fun ω j =>
    recombine_selected Q.hmu hmu arx order m hs ω j
  have hpcT : (∀ ω, CMAES.hsig n p (mueff Q.mu) nfev (CMAES.advance Q nfev (arx ω) (order ω) (s ω)).ps = true) →
      ∀ ω j, (CMAES.advance Q nfev (arx ω) (order ω) (s ω)).pc j = (1 - cc n (mueff Q.mu)) * (s ω).pc j +
        NumFns.sqrt (cc n (mueff Q.mu) * (2 - cc n (mueff Q.mu)) * mueff Q.mu) *
          ∑ k, weights Q.mu k * selected Q.hmu arx order m sigma ω k j := fun hb ω j => by
    have hb := hb ω
    have hx := hx ω j
    unfold CMAES.advance at hb hx ⊢
    dsimp only at hb hx ⊢
    unfold CMAES.pcNext
    rw [hb, if_pos rfl, hx, hm, hsg]
    field_simp
    ring
  have hpcF : (∀ ω, CMAES.hsig n p (mueff Q.mu) nfev (CMAES.advance Q nfev (arx ω) (order ω) (s ω)).ps = false) →
      ∀ ω j, (CMAES.advance Q nfev (arx ω) (order ω) (s ω)).pc j = (1 - cc n (mueff Q.mu)) * (s ω).pc j := fun hb ω j => by
    have hb := hb ω
    unfold CMAES.advance at hb ⊢
    dsimp only at hb ⊢
    unfold CMAES.pcNext
    rw [hb, if_neg Bool.false_ne_true]
    ring
  have hpc1 := fun hb => by
    have := path_cov hmu cc0.le (by linarith) hpc hy hpc'
    exact Cross.congr this (X' := fun ω => (CMAES.advance Q nfev (arx ω) (order ω) (s ω)).pc)
      (Y' := fun ω => (CMAES.advance Q nfev (arx ω) (order ω) (s ω)).pc) (hpcT hb) (hpcT hb)
  refine ⟨fun j => ?_, ?_, hpc1, fun b hb i j => ?_⟩
  · refine ((HasMean.const (m j)).add ((HasMean.sum Finset.univ fun k _ => (hy.mean k j).const_mul (weights Q.mu k)).const_mul
      sigma)).congr (fun ω => hx ω j) ?_
    simp
  · have hz := hy.mulVec W
    rw [hWC] at hz
    have key := path_cov hmu cs0.le (by linarith) hps hz (hps'.mulVec W)
    have hps1 : ∀ ω j, (CMAES.advance Q nfev (arx ω) (order ω) (s ω)).ps j = (1 - CMAES.cs n (mueff Q.mu)) * (s ω).ps j +
        NumFns.sqrt (CMAES.cs n (mueff Q.mu) * (2 - CMAES.cs n (mueff Q.mu)) * mueff Q.mu) *
          ∑ k, weights Q.mu k * W.mulVec (selected Q.hmu arx order m sigma ω k) j := fun ω j => by
      show (1 - CMAES.cs n (mueff Q.mu)) * (s ω).ps j +
        NumFns.sqrt (CMAES.cs n (mueff Q.mu) * (2 - CMAES.cs n (mueff Q.mu)) * mueff Q.mu) * ((s ω).invsqrtC.mulVec fun k =>
          (CMAES.advance Q nfev (arx ω) (order ω) (s ω)).xmean k - (s ω).xmean k) j / (s ω).sigma = _
      rw [hW, hm, hsg]
      have : (fun k => (CMAES.advance Q nfev (arx ω) (order ω) (s ω)).xmean k - m k) =
          fun k => sigma * ∑ l, weights Q.mu l * selected Q.hmu arx order m sigma ω l k := funext fun k => by
        rw [hx]; ring
      rw [this]
      have h2 : (W.mulVec fun k => sigma * ∑ l, weights Q.mu l * selected Q.hmu arx order m sigma ω l k) j =
          sigma * ∑ l, weights Q.mu l * W.mulVec (selected Q.hmu arx order m sigma ω l) j := by
        show ∑ k, W j k * (sigma * ∑ l, weights Q.mu l * selected Q.hmu arx order m sigma ω l k) =
          sigma * ∑ l, weights Q.mu l * ∑ k, W j k * selected Q.hmu arx order m sigma ω l k
        simp only [Finset.mul_sum]
        rw [Finset.sum_comm]
        exact Finset.sum_congr rfl fun l _ => Finset.sum_congr rfl fun k _ => by ring
      rw [h2]
      field_simp
    exact Cross.congr key hps1 hps1
  · have hsum : HasMean P (fun ω => ∑ k, selected Q.hmu arx order m sigma ω k i * weights Q.mu k *
        selected Q.hmu arx order m sigma ω k j) (C i j) := by
      refine (HasMean.sum Finset.univ fun k _ => (hy.cov k k i j).const_mul (weights Q.mu k)).congr (fun ω => ?_) ?_
      · exact Finset.sum_congr rfl fun k _ => by ring
      · simp only [if_true, ← Finset.sum_mul, weights_sum hmu, one_mul]
    have hCn : ∀ ω, (CMAES.advance Q nfev (arx ω) (order ω) (s ω)).C i j =
        (1 - CMAES.c1 n (mueff Q.mu) - CMAES.cmu n (mueff Q.mu) +
          if b then 0 else CMAES.c1 n (mueff Q.mu) * cc n (mueff Q.mu) * (2 - cc n (mueff Q.mu))) * C i j +
        CMAES.cmu n (mueff Q.mu) * (∑ k, selected Q.hmu arx order m sigma ω k i * weights Q.mu k *
          selected Q.hmu arx order m sigma ω k j) +
        CMAES.c1 n (mueff Q.mu) * ((CMAES.advance Q nfev (arx ω) (order ω) (s ω)).pc i *
          (CMAES.advance Q nfev (arx ω) (order ω) (s ω)).pc j) := fun ω => by
      have hb := hb ω
      show CMAES.adapt Q (mueff Q.mu) (arx ω) (order ω) (s ω).xmean (s ω).sigma
        (CMAES.advance Q nfev (arx ω) (order ω) (s ω)).pc
        (CMAES.hsig n p (mueff Q.mu) nfev (CMAES.advance Q nfev (arx ω) (order ω) (s ω)).ps) (s ω).C i j = _
      rw [hb, hm, hsg, hC]
      unfold CMAES.adapt
      dsimp only
      have : (∑ k : Fin Q.mu, (arx ω (order ω (Fin.castLE Q.hmu k)) i - m i) / sigma * weights Q.mu k *
          ((arx ω (order ω (Fin.castLE Q.hmu k)) j - m j) / sigma)) = ∑ k, selected Q.hmu arx order m sigma ω k i *
          weights Q.mu k * selected Q.hmu arx order m sigma ω k j := rfl
      rw [ArrayOps.dot_eq, this]
      cases b <;> simp <;> ring
    cases b with
    | true =>
      refine (((HasMean.const _).add (hsum.const_mul _)).add ((hpc1 hb i j).const_mul _)).congr hCn ?_
      simp
      ring
    | false =>
      have := ((hpc i j).const_mul ((1 - cc n (mueff Q.mu)) ^ 2)).congr (g := fun ω =>
        (CMAES.advance Q nfev (arx ω) (order ω) (s ω)).pc i * (CMAES.advance Q nfev (arx ω) (order ω) (s ω)).pc j)
        (fun ω => by rw [hpcF hb, hpcF hb]; ring) rfl
      refine (((HasMean.const _).add (hsum.const_mul _)).add (this.const_mul _)).congr hCn ?_
      simp
      ring

/-- `vdcma`: the evolution path keeps the covariance of the steps. -/
theorem C68_vdcma {Q : VDCMA.Par σ ℝ p n} {s : Ω → VDCMA.State σ ℝ p n} (hn : 0 < n) (hmu : 0 < Q.mu)
    {u : Ω → ℝ × ℝ × Bool} (hu : ∀ ω, (u ω).2.2 = true)
    (hy : NeutralSteps P C fun ω (k : Fin Q.mu) => (s ω).ary (order ω (Fin.castLE Q.hmu k)))
    (hpc : Cross P (fun ω => (s ω).pc) (fun ω => (s ω).pc) C)
    (hpc' : Unrelated P (fun ω => (s ω).pc) fun ω (k : Fin Q.mu) => (s ω).ary (order ω (Fin.castLE Q.hmu k)))
    {s' : Ω → VDCMA.State σ ℝ p n} (h : ∀ ω, s' ω = VDCMA.advance Q (arx ω) (order ω) (s ω) (u ω)) :
    Cross P (fun ω => (s' ω).pc) (fun ω => (s' ω).pc) C := by
  have hme := one_le_mueff (K := ℝ) hmu
  have cc0 := cc_pos hn hme
  have cc1 := cc_lt_one hn hme
  have key : ∀ ω j, (s' ω).pc j = (1 - cc n (mueff Q.mu)) * (s ω).pc j +
        NumFns.sqrt (cc n (mueff Q.mu) * (2 - cc n (mueff Q.mu)) * mueff Q.mu) *
          ∑ k, weights Q.mu k * (s ω).ary (order ω (Fin.castLE Q.hmu k)) j := fun ω j => by
    rw [h]
    show VDCMA.pcNext Q (order ω) (s ω) (u ω).2.2 j = _
    unfold VDCMA.pcNext
    rw [hu, if_pos rfl, mul_comm ((s ω).pc j)]
    rfl
  exact (path_cov hmu cc0.le (by linarith) hpc hy hpc').congr key key

/-! ## The step size -/

/-- `cmaes` increases the step size exactly when the path is longer than `chind`. -/
theorem C68_cmaes_sigma (hn : 0 < n) (hmu : 0 < Q.mu) {s : CMAES.State σ ℝ n} (hs : 0 < s.sigma) {X : Pop ℝ p n}
    {ord : Equiv.Perm (Fin p)} :
    s.sigma < (CMAES.advance Q nfev X ord s).sigma ↔
      CMAES.chind n < Real.sqrt (∑ j, (CMAES.advance Q nfev X ord s).ps j ^ 2) := by
  have hme := one_le_mueff (K := ℝ) hmu
  have cs0 := CMAES.cs_pos (n := n) hme
  have d0 := CMAES.one_lt_damps (n := n) hme
  have ch0 := CMAES.chind_pos (K := ℝ) hn
  show s.sigma < s.sigma * Real.exp (CMAES.cs n (mueff Q.mu) / CMAES.damps n (mueff Q.mu) *
    (Real.sqrt (∑ j, (CMAES.advance Q nfev X ord s).ps j ^ 2) / CMAES.chind n - 1)) ↔ _
  rw [lt_mul_iff_one_lt_right hs, Real.one_lt_exp_iff, mul_pos_iff_of_pos_left (div_pos cs0 (by linarith)), sub_pos,
    one_lt_div ch0]

/-- `vdcma` increases the step size exactly when, on a moving average, the point injected along the last move ranks better
than the opposite one. -/
theorem C68_vdcma_sigma (hn : 0 < n) {s : VDCMA.State σ ℝ p n} (hs : 0 < s.sigma) (hi : s.inj = true) {ord : Equiv.Perm (Fin p)}
    {u : ℝ × ℝ × Bool} (h : VDCMA.stepSize ord s = .ok u) :
    ∃ hp : 1 < p, u.1 = 7 / 10 * s.ps +
        3 / 10 * ((((ord.symm ⟨1, hp⟩).val : ℝ) - ((ord.symm ⟨0, by omega⟩).val : ℝ)) / ((p : ℝ) - 1)) ∧
      (s.sigma < u.2.1 ↔ 0 < u.1) ∧ (u.2.2 = true ↔ u.1 < 1 / 2) := by
  unfold VDCMA.stepSize at h
  rw [if_pos hi] at h
  by_cases hp : 1 < p
  · rw [dif_pos hp] at h
    cases h
    refine ⟨hp, by ring, ?_, decide_eq_true_iff⟩
    have hq : 0 < Real.sqrt (n : ℝ) := Real.sqrt_pos.2 (by exact_mod_cast hn)
    show s.sigma < s.sigma * Real.exp (_ / Real.sqrt (n : ℝ)) ↔ _
    rw [lt_mul_iff_one_lt_right hs, Real.one_lt_exp_iff, div_pos_iff_of_pos_right hq]
  · rw [dif_neg hp] at h; cases h

/-! ## The hypotheses can be met -/

/-- Two independent fair signs. -/
noncomputable def signs : Measure (Fin 4) := (4⁻¹ : ENNReal) • Measure.count

instance : IsProbabilityMeasure signs := ⟨by
  rw [signs, Measure.smul_apply, Measure.count_univ]
  simp [ENNReal.inv_mul_cancel]⟩

theorem mean_signs (f : Fin 4 → ℝ) : HasMean signs f ((f 0 + f 1 + f 2 + f 3) / 4) := by
  refine ⟨Integrable.of_finite, ?_⟩
  rw [signs, integral_smul_measure, integral_fintype Integrable.of_finite]
  simp [Fin.sum_univ_four]
  ring

/-- In one dimension with one parent: the step is the first sign, the paths are the second. -/
example : ∃ (y : Fin 4 → Fin 1 → Vec ℝ 1) (X : Fin 4 → Vec ℝ 1), NeutralSteps signs 1 y ∧ Cross signs X X 1 ∧ Unrelated signs X y := by
  refine ⟨fun ω _ _ => ![1, 1, -1, -1] ω, fun ω _ => ![1, -1, 1, -1] ω, ⟨fun k i => ?_, fun k l i j => ?_⟩, fun i j => ?_, fun k i j => ?_⟩
  · exact (mean_signs _).congr (fun _ => rfl) (by simp)
  · exact (mean_signs _).congr (fun _ => rfl) (by
      rw [Subsingleton.elim l k, Subsingleton.elim j i, if_pos rfl, Matrix.one_apply_eq]; simp; norm_num)
  · exact (mean_signs _).congr (fun _ => rfl) (by rw [Subsingleton.elim j i, Matrix.one_apply_eq]; simp; norm_num)
  · exact (mean_signs _).congr (fun _ => rfl) (by simp)
end Stochopy.Props
