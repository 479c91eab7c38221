import Verif.Lemmas.Reach
import Mathlib.MeasureTheory.Measure.Hausdorff

/-! # Points that a short leap-frog trajectory can reach -/

set_option linter.unusedSectionVars false

namespace Stochopy
open MeasureTheory ProbabilityTheory Spec Sampling

namespace HMC
variable {n : Nat} (γ : Vec ℝ n → Vec ℝ n) (ε q : Vec ℝ n)

/-- Position and momentum after `k` steps from `q` with the momentum `p`. -/
noncomputable def traj (k : Nat) (p : Vec ℝ n) : Vec ℝ n × Vec ℝ n := (verlet γ ε)^[k] (q, p)

/-- The momentum in the middle of step `k`. -/
noncomputable def mid (k : Nat) (p : Vec ℝ n) : Vec ℝ n := fun j =>
  (traj γ ε q k p).2 j - ε j / 2 * γ (traj γ ε q k p).1 j

theorem traj_succ (k : Nat) (p : Vec ℝ n) (j : Fin n) :
    (traj γ ε q (k + 1) p).1 j = (traj γ ε q k p).1 j + ε j * mid γ ε q k p j := by
  unfold traj
  rw [Function.iterate_succ_apply']
  rfl

theorem mid_succ (k : Nat) (p : Vec ℝ n) (j : Fin n) :
    mid γ ε q (k + 1) p j = mid γ ε q k p j - ε j * γ (traj γ ε q (k + 1) p).1 j := by
  have h : (traj γ ε q (k + 1) p).2 j = mid γ ε q k p j - ε j / 2 * γ (traj γ ε q (k + 1) p).1 j := by
    unfold traj
    rw [Function.iterate_succ_apply']
    rfl
  show (traj γ ε q (k + 1) p).2 j - _ = _
  rw [h]
  ring

theorem traj_sum (p : Vec ℝ n) (j : Fin n) (L : Nat) :
    (traj γ ε q L p).1 j = q j + ε j * ∑ k ∈ Finset.range L, mid γ ε q k p j := by
  induction L with
  | zero => simp [traj]
  | succ L ih => rw [traj_succ, ih, Finset.sum_range_succ]; ring

variable {γ ε}

/-- How far two trajectories can differ. -/
theorem traj_lipschitz {κ e : ℝ} (hκ : 0 ≤ κ) (hγ : ∀ x y, ‖γ x - γ y‖ ≤ κ * ‖x - y‖) (he : ∀ j, |ε j| ≤ e)
    (he0 : 0 ≤ e) {L : Nat} (hL : e * e * κ * (L * L) ≤ 1) (p p' : Vec ℝ n) :
    ∀ k, k < L → ‖(traj γ ε q k p).1 - (traj γ ε q k p').1‖ ≤ 2 * e * k * ‖p - p'‖ ∧
      ∀ j, |mid γ ε q k p j - mid γ ε q k p' j - (p j - p' j)| ≤ e * e * κ * (k * (k + 1)) * ‖p - p'‖ := by
  intro k
  induction k with
  | zero =>
    intro _
    refine ⟨by simp [traj], fun j => ?_⟩
    simp [mid, traj]
  | succ k ih =>
    intro hk
    obtain ⟨h1, h2⟩ := ih (by omega)
    have hδ := norm_nonneg (p - p')
    set δ := ‖p - p'‖
    have hs : 0 ≤ e * e * κ := by positivity
    have hkL : ((k : ℝ) * (k + 1)) ≤ (L : ℝ) * L := by
      have : ((k + 1 : Nat) : ℝ) ≤ L := by exact_mod_cast hk.le
      push_cast at this
      have hk0 : (0 : ℝ) ≤ k := Nat.cast_nonneg k
      nlinarith
    have hsk : e * e * κ * (k * (k + 1)) ≤ 1 := (mul_le_mul_of_nonneg_left hkL hs).trans hL
    have hq : ‖(traj γ ε q (k + 1) p).1 - (traj γ ε q (k + 1) p').1‖ ≤ 2 * e * ((k + 1 : Nat) : ℝ) * δ := by
      rw [pi_norm_le_iff_of_nonneg (by positivity)]
      intro j
      rw [Pi.sub_apply, traj_succ, traj_succ, Real.norm_eq_abs]
      have a1 : |(traj γ ε q k p).1 j - (traj γ ε q k p').1 j| ≤ 2 * e * k * δ := by
        have := norm_le_pi_norm ((traj γ ε q k p).1 - (traj γ ε q k p').1) j
        exact this.trans h1
      have a2 : |p j - p' j| ≤ δ := norm_le_pi_norm (p - p') j
      have a3 : |mid γ ε q k p j - mid γ ε q k p' j| ≤ 2 * δ := by
        have := abs_add_le (mid γ ε q k p j - mid γ ε q k p' j - (p j - p' j)) (p j - p' j)
        rw [sub_add_cancel] at this
        have h3 := h2 j
        nlinarith
      have a4 : |ε j * (mid γ ε q k p j - mid γ ε q k p' j)| ≤ e * (2 * δ) := by
        rw [abs_mul]
        exact mul_le_mul (he j) a3 (abs_nonneg _) he0
      have a5 := abs_add_le ((traj γ ε q k p).1 j - (traj γ ε q k p').1 j) (ε j * (mid γ ε q k p j - mid γ ε q k p' j))
      have a6 : (traj γ ε q k p).1 j + ε j * mid γ ε q k p j - ((traj γ ε q k p').1 j + ε j * mid γ ε q k p' j) =
          (traj γ ε q k p).1 j - (traj γ ε q k p').1 j + ε j * (mid γ ε q k p j - mid γ ε q k p' j) := by ring
      rw [a6]
      push_cast
      linarith
    refine ⟨hq, fun j => ?_⟩
    rw [mid_succ, mid_succ]
    have b1 : |γ (traj γ ε q (k + 1) p).1 j - γ (traj γ ε q (k + 1) p').1 j| ≤ κ * (2 * e * ((k + 1 : Nat) : ℝ) * δ) := by
      have := norm_le_pi_norm (γ (traj γ ε q (k + 1) p).1 - γ (traj γ ε q (k + 1) p').1) j
      exact (this.trans (hγ _ _)).trans (mul_le_mul_of_nonneg_left hq hκ)
    have b2 : |ε j * (γ (traj γ ε q (k + 1) p).1 j - γ (traj γ ε q (k + 1) p').1 j)| ≤
        e * (κ * (2 * e * ((k + 1 : Nat) : ℝ) * δ)) := by
      rw [abs_mul]
      exact mul_le_mul (he j) b1 (abs_nonneg _) he0
    have b3 := abs_sub (mid γ ε q k p j - mid γ ε q k p' j - (p j - p' j))
      (ε j * (γ (traj γ ε q (k + 1) p).1 j - γ (traj γ ε q (k + 1) p').1 j))
    have b4 : mid γ ε q k p j - ε j * γ (traj γ ε q (k + 1) p).1 j - (mid γ ε q k p' j - ε j * γ (traj γ ε q (k + 1) p').1 j) -
        (p j - p' j) = mid γ ε q k p j - mid γ ε q k p' j - (p j - p' j) -
        ε j * (γ (traj γ ε q (k + 1) p).1 j - γ (traj γ ε q (k + 1) p').1 j) := by ring
    rw [b4]
    have h3 := h2 j
    push_cast at b2 ⊢
    nlinarith

/-- With a Lipschitz gradient and a short trajectory every point is the end of a trajectory from `q`. -/
theorem traj_surjective {κ e : ℝ} (hκ : 0 ≤ κ) (hγ : ∀ x y, ‖γ x - γ y‖ ≤ κ * ‖x - y‖) (he : ∀ j, |ε j| ≤ e)
    (he0 : 0 ≤ e) {L : Nat} (hL1 : 1 ≤ L) (hL : e * e * κ * (L * L) ≤ 1) (hε : ∀ j, ε j ≠ 0) (y : Vec ℝ n) :
    ∃ p, (traj γ ε q L p).1 = y := by
  have hL0 : (0 : ℝ) < L := by exact_mod_cast hL1
  let F : Vec ℝ n → Vec ℝ n := fun p j =>
    (y j - q j) / (L * ε j) - (∑ k ∈ Finset.range L, (mid γ ε q k p j - p j)) / L
  have hF : ContractingWith (1 / 3) F := by
    refine ⟨by rw [← NNReal.coe_lt_coe]; norm_num, LipschitzWith.of_dist_le_mul fun p p' => ?_⟩
    rw [dist_eq_norm, dist_eq_norm]
    have hδ := norm_nonneg (p - p')
    rw [pi_norm_le_iff_of_nonneg (by positivity)]
    intro j
    have h1 : (F p - F p') j = -(∑ k ∈ Finset.range L, (mid γ ε q k p j - mid γ ε q k p' j - (p j - p' j))) / L := by
      show ((y j - q j) / (L * ε j) - (∑ k ∈ Finset.range L, (mid γ ε q k p j - p j)) / L) -
        ((y j - q j) / (L * ε j) - (∑ k ∈ Finset.range L, (mid γ ε q k p' j - p' j)) / L) = _
      have : ∑ k ∈ Finset.range L, (mid γ ε q k p j - mid γ ε q k p' j - (p j - p' j)) =
          ∑ k ∈ Finset.range L, (mid γ ε q k p j - p j) - ∑ k ∈ Finset.range L, (mid γ ε q k p' j - p' j) := by
        rw [← Finset.sum_sub_distrib]
        exact Finset.sum_congr rfl fun k _ => by ring
      rw [this]
      ring
    rw [h1, Real.norm_eq_abs, abs_div, abs_neg, abs_of_pos hL0, div_le_iff₀ hL0]
    have h2 : |∑ k ∈ Finset.range L, (mid γ ε q k p j - mid γ ε q k p' j - (p j - p' j))| ≤
        ∑ k ∈ Finset.range L, e * e * κ * ((k : ℝ) * (k + 1)) * ‖p - p'‖ :=
      (Finset.abs_sum_le_sum_abs _ _).trans (Finset.sum_le_sum fun k hk =>
        (traj_lipschitz q hκ hγ he he0 hL p p' k (Finset.mem_range.1 hk)).2 j)
    have h3 : ∀ M : Nat, ∑ k ∈ Finset.range M, ((k : ℝ) * (k + 1)) = ((M : ℝ) * M * M - M) / 3 := by
      intro M
      induction M with
      | zero => simp
      | succ M ih => rw [Finset.sum_range_succ, ih]; push_cast; ring
    rw [← Finset.sum_mul, ← Finset.mul_sum, h3 L] at h2
    refine h2.trans ?_
    have hs : 0 ≤ e * e * κ := by positivity
    have h4 : e * e * κ * (((L : ℝ) * L * L - L) / 3) ≤ 1 / 3 * L := by
      have : e * e * κ * ((L : ℝ) * L) * L ≤ 1 * L := mul_le_mul_of_nonneg_right hL hL0.le
      have h5 : 0 ≤ e * e * κ * L := by positivity
      nlinarith
    calc e * e * κ * (((L : ℝ) * L * L - L) / 3) * ‖p - p'‖ ≤ 1 / 3 * L * ‖p - p'‖ := mul_le_mul_of_nonneg_right h4 hδ
      _ = ((1 / 3 : NNReal) : ℝ) * ‖p - p'‖ * L := by push_cast; ring
  refine ⟨hF.fixedPoint F, funext fun j => ?_⟩
  have hfix : F (hF.fixedPoint F) = hF.fixedPoint F := hF.fixedPoint_isFixedPt
  set p := hF.fixedPoint F
  have h1 := congrFun hfix j
  have h1 : (y j - q j) / (L * ε j) - (∑ k ∈ Finset.range L, (mid γ ε q k p j - p j)) / L = p j := h1
  rw [traj_sum]
  rw [Finset.sum_sub_distrib, Finset.sum_const, Finset.card_range, nsmul_eq_mul] at h1
  have hj := hε j
  field_simp at h1
  linarith

/-- The ends of two trajectories, compared with their momenta. -/
theorem traj_end {κ e : ℝ} (hκ : 0 ≤ κ) (hγ : ∀ x y, ‖γ x - γ y‖ ≤ κ * ‖x - y‖) (he : ∀ j, |ε j| ≤ e)
    (he0 : 0 ≤ e) {L : Nat} (hL : e * e * κ * (L * L) ≤ 1) (p p' : Vec ℝ n) (j : Fin n) :
    |(traj γ ε q L p).1 j - (traj γ ε q L p').1 j - ε j * L * (p j - p' j)| ≤ |ε j| * (1 / 3 * L * ‖p - p'‖) := by
  have hL0 : (0 : ℝ) ≤ L := Nat.cast_nonneg L
  have hδ := norm_nonneg (p - p')
  have h1 : (traj γ ε q L p).1 j - (traj γ ε q L p').1 j - ε j * L * (p j - p' j) =
      ε j * ∑ k ∈ Finset.range L, (mid γ ε q k p j - mid γ ε q k p' j - (p j - p' j)) := by
    rw [traj_sum, traj_sum, Finset.sum_sub_distrib, Finset.sum_sub_distrib, Finset.sum_const, Finset.card_range, nsmul_eq_mul]
    ring
  rw [h1, abs_mul]
  refine mul_le_mul_of_nonneg_left ?_ (abs_nonneg _)
  have h2 : |∑ k ∈ Finset.range L, (mid γ ε q k p j - mid γ ε q k p' j - (p j - p' j))| ≤
      ∑ k ∈ Finset.range L, e * e * κ * ((k : ℝ) * (k + 1)) * ‖p - p'‖ :=
    (Finset.abs_sum_le_sum_abs _ _).trans (Finset.sum_le_sum fun k hk =>
      (traj_lipschitz q hκ hγ he he0 hL p p' k (Finset.mem_range.1 hk)).2 j)
  have h3 : ∀ M : Nat, ∑ k ∈ Finset.range M, ((k : ℝ) * (k + 1)) = ((M : ℝ) * M * M - M) / 3 := by
    intro M
    induction M with
    | zero => simp
    | succ M ih => rw [Finset.sum_range_succ, ih]; push_cast; ring
  rw [← Finset.sum_mul, ← Finset.mul_sum, h3 L] at h2
  refine h2.trans ?_
  have hs : 0 ≤ e * e * κ := by positivity
  have h4 : e * e * κ * (((L : ℝ) * L * L - L) / 3) ≤ 1 / 3 * L := by
    have : e * e * κ * ((L : ℝ) * L) * L ≤ 1 * L := mul_le_mul_of_nonneg_right hL hL0
    have h5 : 0 ≤ e * e * κ * L := by positivity
    nlinarith
  exact mul_le_mul_of_nonneg_right h4 hδ

theorem traj_end_lipschitz {κ e : ℝ} (hκ : 0 ≤ κ) (hγ : ∀ x y, ‖γ x - γ y‖ ≤ κ * ‖x - y‖) (he : ∀ j, |ε j| ≤ e)
    (he0 : 0 ≤ e) {L : Nat} (hL : e * e * κ * (L * L) ≤ 1) : ∃ K, LipschitzWith K fun p => (traj γ ε q L p).1 := by
  have hL0 : (0 : ℝ) ≤ L := Nat.cast_nonneg L
  refine ⟨⟨2 * e * L, by positivity⟩, LipschitzWith.of_dist_le_mul fun p p' => ?_⟩
  rw [dist_eq_norm, dist_eq_norm]
  have hδ := norm_nonneg (p - p')
  show _ ≤ 2 * e * L * ‖p - p'‖
  rw [pi_norm_le_iff_of_nonneg (by positivity)]
  intro j
  have h1 := traj_end q hκ hγ he he0 hL p p' j
  have h2 : |p j - p' j| ≤ ‖p - p'‖ := norm_le_pi_norm (p - p') j
  rw [Pi.sub_apply, Real.norm_eq_abs]
  have h3 := abs_add_le ((traj γ ε q L p).1 j - (traj γ ε q L p').1 j - ε j * L * (p j - p' j)) (ε j * L * (p j - p' j))
  rw [sub_add_cancel] at h3
  have h4 : |ε j * L * (p j - p' j)| ≤ e * L * ‖p - p'‖ := by
    rw [abs_mul, abs_mul, Nat.abs_cast]
    exact mul_le_mul (mul_le_mul_of_nonneg_right (he j) hL0) h2 (abs_nonneg _) (by positivity)
  have h5 : |ε j| * (1 / 3 * L * ‖p - p'‖) ≤ e * (1 / 3 * L * ‖p - p'‖) := mul_le_mul_of_nonneg_right (he j) (by positivity)
  have h6 : 0 ≤ e * L * ‖p - p'‖ := by positivity
  nlinarith

theorem traj_end_antilipschitz {κ e : ℝ} (hκ : 0 ≤ κ) (hγ : ∀ x y, ‖γ x - γ y‖ ≤ κ * ‖x - y‖) (he : ∀ j, |ε j| ≤ e)
    (he0 : 0 ≤ e) {L : Nat} (hL1 : 1 ≤ L) (hL : e * e * κ * (L * L) ≤ 1) (hε : ∀ j, ε j ≠ 0) :
    ∃ K, AntilipschitzWith K fun p => (traj γ ε q L p).1 := by
  have hL0 : (1 : ℝ) ≤ L := by exact_mod_cast hL1
  obtain ⟨b, hb0, hb⟩ : ∃ b : ℝ, 0 < b ∧ ∀ j, b ≤ |ε j| := by
    cases isEmpty_or_nonempty (Fin n) with
    | inl h => exact ⟨1, one_pos, fun j => isEmptyElim j⟩
    | inr h =>
      obtain ⟨j, -, hj⟩ := Finset.exists_min_image Finset.univ (fun j => |ε j|) Finset.univ_nonempty
      exact ⟨|ε j|, abs_pos.2 (hε j), fun i => hj i (Finset.mem_univ i)⟩
  refine ⟨⟨3 / 2 / b, by positivity⟩, AntilipschitzWith.of_le_mul_dist fun p p' => ?_⟩
  rw [dist_eq_norm, dist_eq_norm]
  show _ ≤ 3 / 2 / b * ‖(traj γ ε q L p).1 - (traj γ ε q L p').1‖
  set N := ‖(traj γ ε q L p).1 - (traj γ ε q L p').1‖ with hN
  have hN0 : 0 ≤ N := norm_nonneg _
  have hδ := norm_nonneg (p - p')
  have h0 : ‖p - p'‖ ≤ N / b + 1 / 3 * ‖p - p'‖ := by
    rw [pi_norm_le_iff_of_nonneg (by positivity)]
    intro j
    rw [Pi.sub_apply, Real.norm_eq_abs]
    have h1 := traj_end q hκ hγ he he0 hL p p' j
    have h2 : |(traj γ ε q L p).1 j - (traj γ ε q L p').1 j| ≤ N := norm_le_pi_norm ((traj γ ε q L p).1 - (traj γ ε q L p').1) j
    have h3 := abs_sub ((traj γ ε q L p).1 j - (traj γ ε q L p').1 j)
      ((traj γ ε q L p).1 j - (traj γ ε q L p').1 j - ε j * L * (p j - p' j))
    rw [sub_sub_cancel, abs_mul, abs_mul, Nat.abs_cast] at h3
    have hj : 0 < |ε j| := abs_pos.2 (hε j)
    have h4 : |ε j| * (L * |p j - p' j|) ≤ |ε j| * (N / b * 1 + 1 / 3 * L * ‖p - p'‖) := by
      have h5 : N ≤ |ε j| * (N / b) := by
        rw [mul_div_assoc', le_div_iff₀ hb0, mul_comm]
        exact mul_le_mul_of_nonneg_right (hb j) hN0
      nlinarith
    have h6 := le_of_mul_le_mul_left h4 hj
    have h7 : 0 ≤ N / b := by positivity
    have h8 : (L : ℝ) * |p j - p' j| ≤ L * (N / b + 1 / 3 * ‖p - p'‖) := by nlinarith
    exact le_of_mul_le_mul_left h8 (by linarith)
  have h1 : 3 / 2 / b * N = 3 / 2 * (N / b) := by ring
  rw [h1]
  linarith

/-- Lipschitz continuous maps take null sets to null sets. -/
theorem lipschitz_null {K : NNReal} {T : Vec ℝ n → Vec ℝ n} (hT : LipschitzWith K T) {A : Set (Vec ℝ n)} (hA : volume A = 0) :
    volume (T '' A) = 0 := by
  rw [← hausdorffMeasure_pi_real] at hA ⊢
  have := hT.hausdorffMeasure_image_le (d := Fintype.card (Fin n)) (by positivity) A
  rw [hA, mul_zero] at this
  exact le_antisymm this bot_le

theorem antilipschitz_null {K : NNReal} {T : Vec ℝ n → Vec ℝ n} (hT : AntilipschitzWith K T) {A : Set (Vec ℝ n)} (hA : volume A = 0) :
    volume (T ⁻¹' A) = 0 := by
  rw [← hausdorffMeasure_pi_real] at hA ⊢
  have := hT.hausdorffMeasure_preimage_le (d := Fintype.card (Fin n)) (by positivity) A
  rw [hA, mul_zero] at this
  exact le_antisymm this bot_le

end HMC

/-- One iteration can reach every set of positive volume when the trajectories are short. -/
theorem hamiltonian_reach {n : Nat} {f : Vec ℝ n → ℝ} {γ : Vec ℝ n → Vec ℝ n} {ε : Vec ℝ n} {κ e : ℝ} (hκ : 0 ≤ κ)
    (hγ : ∀ x y, ‖γ x - γ y‖ ≤ κ * ‖x - y‖) (he : ∀ j, |ε j| ≤ e) (hε : ∀ j, ε j ≠ 0) {L : Nat} (hL1 : 1 ≤ L)
    (hL : (L * e) ^ 2 * κ ≤ 1) (he0 : 0 ≤ e) (q : Vec ℝ n) {B : Set (Vec ℝ n)} (hB : volume B ≠ 0) :
    ((gauss n).prod unifLaw) {ω | hamiltonianStep f γ ε L q ω ∈ B} ≠ 0 := by
  intro h0
  have hL' : e * e * κ * (L * L) ≤ 1 := by
    refine le_trans (le_of_eq ?_) hL
    ring
  have h1 : ∀ᵐ ω ∂((gauss n).prod unifLaw), hamiltonianStep f γ ε L q ω ∉ B := by
    rw [ae_iff]
    simpa using h0
  have h2 : ∀ᵐ p ∂(gauss n), (HMC.traj γ ε q L p).1 ∉ B :=
    metropolis_avoid (d := fun p => hamiltonian f (q, p) - hamiltonian f ((verlet γ ε)^[L] (q, p)))
      (T := fun p => (HMC.traj γ ε q L p).1) (x := q) (p := fun y => y ∉ B) h1
  have h3 : volume {p | (HMC.traj γ ε q L p).1 ∈ B} = 0 := by
    apply volume_ac_gauss n
    have := ae_iff.1 h2
    simpa using this
  obtain ⟨K, hK⟩ := HMC.traj_end_lipschitz q hκ hγ he he0 hL'
  refine hB (measure_mono_null (fun y hy => ?_) (HMC.lipschitz_null hK h3))
  obtain ⟨p, hp⟩ := HMC.traj_surjective q hκ hγ he he0 hL1 hL' hε y
  exact ⟨p, by show _ ∈ B; rw [hp]; exact hy, hp⟩

/-- Accepted proposals avoid every null set when the trajectories are short. -/
theorem hamiltonian_jump {n : Nat} {f : Vec ℝ n → ℝ} {γ : Vec ℝ n → Vec ℝ n} {ε : Vec ℝ n} {κ e : ℝ} (hκ : 0 ≤ κ)
    (hγ : ∀ x y, ‖γ x - γ y‖ ≤ κ * ‖x - y‖) (he : ∀ j, |ε j| ≤ e) (hε : ∀ j, ε j ≠ 0) {L : Nat} (hL1 : 1 ≤ L)
    (hL : (L * e) ^ 2 * κ ≤ 1) (he0 : 0 ≤ e) (q : Vec ℝ n) {N : Set (Vec ℝ n)} (hN : volume N = 0) :
    ((gauss n).prod unifLaw) {ω | hamiltonianStep f γ ε L q ω ≠ q ∧ hamiltonianStep f γ ε L q ω ∈ N} = 0 := by
  have hL' : e * e * κ * (L * L) ≤ 1 := by
    refine le_trans (le_of_eq ?_) hL
    ring
  obtain ⟨K, hK⟩ := HMC.traj_end_antilipschitz q hκ hγ he he0 hL1 hL' hε
  have h1 : gauss n {p | (HMC.traj γ ε q L p).1 ∈ N} = 0 := by
    have : gauss n ≪ volume := by
      rw [gauss_density]
      exact withDensity_absolutelyContinuous _ _
    exact this (HMC.antilipschitz_null hK hN)
  refine measure_mono_null (t := {p | (HMC.traj γ ε q L p).1 ∈ N} ×ˢ Set.univ) ?_ (by rw [Measure.prod_prod, h1, zero_mul])
  rintro ω ⟨hne, hmem⟩
  refine ⟨?_, trivial⟩
  unfold hamiltonianStep at hne hmem
  dsimp only at hne hmem
  split at hne
  · rename_i hacc
    rw [if_pos hacc] at hmem
    exact hmem
  · exact absurd rfl hne

end Stochopy
