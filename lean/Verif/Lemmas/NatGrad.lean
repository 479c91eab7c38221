import Verif.Lemmas.VDCMA
import Verif.Spec.NatGrad
import Mathlib.LinearAlgebra.Matrix.SchurComplement

/-! `vdcma`: the update direction is a natural gradient. -/

set_option linter.unusedSectionVars false

namespace Stochopy.VDCMA
open Evo Spec

section
variable {n : Nat} {v d : Vec ℝ n}

theorem covVD_eq (d v : Vec ℝ n) : covVD d v = cov d v := by
  ext i j
  unfold covVD VDCMA.cov
  rw [Matrix.mul_diagonal, Matrix.diagonal_mul, Matrix.add_apply, Matrix.vecMulVec_apply, Matrix.one_apply]

/-- The inverse of `I + v vᵀ`. -/
noncomputable def binv (v : Vec ℝ n) (i j : Fin n) : ℝ := (if i = j then 1 else 0) - v i * v j / (1 + normV2 v)

noncomputable def covInv (d v : Vec ℝ n) : Matrix (Fin n) (Fin n) ℝ := fun i j => binv v i j / (d i * d j)

theorem binv_comm (i j : Fin n) : binv v i j = binv v j i := by
  unfold binv
  rcases eq_or_ne i j with h | h
  · rw [h]
  · rw [if_neg h, if_neg h.symm]; ring

theorem one_add_pos (v : Vec ℝ n) : 0 < 1 + normV2 v := by have := normV2_nonneg (v := v); linarith

theorem sum_binv (w : Vec ℝ n) (k : Fin n) : ∑ l, binv v k l * w l = w k - v k * (∑ l, v l * w l) / (1 + normV2 v) := by
  unfold binv
  simp only [sub_mul, ite_mul, one_mul, zero_mul, Finset.sum_sub_distrib, Finset.sum_ite_eq, Finset.mem_univ, if_true]
  congr 1
  rw [Finset.mul_sum, Finset.sum_div]
  exact Finset.sum_congr rfl fun j _ => by ring

theorem binv_v (k : Fin n) : ∑ l, binv v k l * v l = v k / (1 + normV2 v) := by
  rw [sum_binv]
  have := one_add_pos v
  change v k - v k * normV2 v / (1 + normV2 v) = _
  field_simp
  ring

theorem cov_mul_inv (hd : ∀ j, 0 < d j) : covInv d v * cov d v = 1 := by
  ext i j
  rw [Matrix.mul_apply, Matrix.one_apply]
  have h1 : ∀ k, covInv d v i k * cov d v k j = (binv v i k * ((if k = j then 1 else 0) + v k * v j)) * (d j / d i) := fun k => by
    unfold covInv cov
    have := (hd k).ne'
    have := (hd i).ne'
    field_simp
  simp only [h1]
  rw [← Finset.sum_mul]
  have h2 : ∑ k, binv v i k * ((if k = j then 1 else 0) + v k * v j) = if i = j then 1 else 0 := by
    have h3 : ∀ k, binv v i k * ((if k = j then 1 else 0) + v k * v j) = (if k = j then binv v i k else 0) + binv v i k * v k * v j := fun k => by
      split_ifs <;> ring
    simp only [h3]
    rw [Finset.sum_add_distrib, Finset.sum_ite_eq', if_pos (Finset.mem_univ _), ← Finset.sum_mul, binv_v]
    unfold binv
    ring
  rw [h2]
  split_ifs with h
  · subst h; rw [div_self (hd i).ne', one_mul]
  · rw [zero_mul]

theorem covVD_inv (hd : ∀ j, 0 < d j) : (covVD d v)⁻¹ = covInv d v := by
  rw [covVD_eq]
  exact Matrix.inv_eq_left_inv (cov_mul_inv hd)

theorem det_covVD (d v : Vec ℝ n) : (covVD d v).det = (∏ j, d j) ^ 2 * (1 + normV2 v) := by
  unfold covVD
  rw [Matrix.det_mul, Matrix.det_mul, Matrix.det_diagonal]
  have : (1 + Matrix.vecMulVec v v).det = 1 + normV2 v := by
    rw [Matrix.vecMulVec_eq Unit, Matrix.det_one_add_replicateCol_mul_replicateRow]
    rfl
  rw [this]
  ring

theorem quad_inv (hd : ∀ j, 0 < d j) (x : Vec ℝ n) : ∑ i, ∑ j, x i * covInv d v i j * x j = mnorm x d v := by
  have h1 : ∀ i, ∑ j, x i * covInv d v i j * x j = x i / d i * (∑ j, binv v i j * (x j / d j)) := fun i => by
    rw [Finset.mul_sum]
    refine Finset.sum_congr rfl fun j _ => ?_
    unfold covInv
    have := (hd j).ne'
    have := (hd i).ne'
    field_simp
  simp only [h1, sum_binv]
  unfold mnorm; simp only [dot_def, ArrayOps.sum_eq]
  have h2 : ∀ i, x i / d i * (x i / d i - v i * (∑ l, v l * (x l / d l)) / (1 + normV2 v)) =
      (x i / d i) ^ 2 - (x i / d i * v i) * ((∑ l, x l / d l * v l) / (1 + normV2 v)) := fun i => by
    have : ∑ l, v l * (x l / d l) = ∑ l, x l / d l * v l := Finset.sum_congr rfl fun l _ => mul_comm _ _
    rw [this]; ring
  simp only [h2]
  rw [Finset.sum_sub_distrib, ← Finset.sum_mul]
  ring

theorem logDensity_eq (hd : ∀ j, 0 < d j) (x : Vec ℝ n) :
    logDensity (covVD d v) x = -(∑ j, Real.log (d j)) - Real.log (1 + normV2 v) / 2 - mnorm x d v / 2 := by
  unfold logDensity
  rw [covVD_inv hd, quad_inv hd, det_covVD, Real.log_mul (pow_ne_zero _ (Finset.prod_ne_zero_iff.2 fun j _ => (hd j).ne')) (one_add_pos v).ne',
    Real.log_pow, Real.log_prod (fun j _ => (hd j).ne')]
  push_cast
  ring

/-! ### Derivatives -/

theorem sum_update (f : Fin n → ℝ → ℝ) (w : Vec ℝ n) (k : Fin n) (t : ℝ) :
    ∑ j, f j (Function.update w k t j) = (∑ j, f j (w j)) + (f k t - f k (w k)) := by
  rw [← Finset.add_sum_erase _ _ (Finset.mem_univ k), ← Finset.add_sum_erase _ (fun j => f j (w j)) (Finset.mem_univ k),
    Function.update_self]
  have : ∑ j ∈ Finset.univ.erase k, f j (Function.update w k t j) = ∑ j ∈ Finset.univ.erase k, f j (w j) :=
    Finset.sum_congr rfl fun j hj => by rw [Function.update_of_ne (Finset.ne_of_mem_erase hj)]
  rw [this]
  ring

/-- Derivative of the density in `v`. -/
theorem deriv_v (hd : ∀ j, 0 < d j) (x : Vec ℝ n) (k : Fin n) (y : Vec ℝ n) (hy : y = fun j => x j / d j) :
    HasDerivAt (fun t => logDensity (covVD d (Function.update v k t)) x)
      (-v k / (1 + normV2 v) + dot y v * y k / (1 + normV2 v) - dot y v ^ 2 * v k / (1 + normV2 v) ^ 2) (v k) := by
  have hpos := one_add_pos v
  have e : (fun t => logDensity (covVD d (Function.update v k t)) x) = fun t =>
      -(∑ j, Real.log (d j)) - Real.log (1 + normV2 v - v k * v k + t * t) / 2 -
        (∑ j, y j ^ 2 - (dot y v - y k * v k + y k * t) ^ 2 / (1 + normV2 v - v k * v k + t * t)) / 2 := by
    funext t
    rw [logDensity_eq hd]
    have h1 : normV2 (Function.update v k t) = normV2 v - v k * v k + t * t := by
      unfold normV2; simp only [dot_def]
      rw [sum_update (fun _ a => a * a)]; ring
    have h2 : dot (fun j => x j / d j) (Function.update v k t) = dot y v - y k * v k + y k * t := by
      rw [hy]
      simp only [dot_def]
      rw [sum_update (fun j a => x j / d j * a)]; ring
    unfold mnorm
    rw [ArrayOps.sum_eq, h1, h2, hy, ← add_assoc, ← add_sub_assoc]
  rw [e]
  have hid : HasDerivAt (fun t : ℝ => t) 1 (v k) := hasDerivAt_id _
  have hs : HasDerivAt (fun t => 1 + normV2 v - v k * v k + t * t) (1 * v k + v k * 1) (v k) := (hid.mul hid).const_add _
  have hq : HasDerivAt (fun t => dot y v - y k * v k + y k * t) (y k * 1) (v k) := (hid.const_mul _).const_add _
  have hval : 1 + normV2 v - v k * v k + v k * v k = 1 + normV2 v := by ring
  have hval2 : dot y v - y k * v k + y k * v k = dot y v := by ring
  have hne : 1 + normV2 v - v k * v k + v k * v k ≠ 0 := by rw [hval]; exact hpos.ne'
  have := (((hs.log hne).div_const 2).const_sub (-(∑ j, Real.log (d j)))).sub
    ((((hq.pow 2).div hs hne).const_sub (∑ j, y j ^ 2)).div_const 2)
  refine this.congr_deriv ?_
  simp only [Pi.pow_apply, hval, hval2]
  field_simp
  ring

/-- Derivative of the density in `d`. -/
theorem deriv_d (hd : ∀ j, 0 < d j) (x : Vec ℝ n) (k : Fin n) (y : Vec ℝ n) (hy : y = fun j => x j / d j) :
    HasDerivAt (fun t => logDensity (covVD (Function.update d k t) v) x)
      ((-1 + y k ^ 2 - dot y v * y k * v k / (1 + normV2 v)) / d k) (d k) := by
  have hpos := one_add_pos v
  have hk := hd k
  have e : ∀ t, 0 < t → logDensity (covVD (Function.update d k t) v) x =
      -(∑ j, Real.log (d j) - Real.log (d k) + Real.log t) - Real.log (1 + normV2 v) / 2 -
        (∑ j, y j ^ 2 - y k ^ 2 + (x k / t) ^ 2 - (dot y v - y k * v k + x k / t * v k) ^ 2 / (1 + normV2 v)) / 2 := by
    intro t ht
    have hd' : ∀ j, 0 < Function.update d k t j := fun j => by
      rcases eq_or_ne j k with h | h
      · rw [h, Function.update_self]; exact ht
      · rw [Function.update_of_ne h]; exact hd j
    rw [logDensity_eq hd']
    have h0 : ∑ j, Real.log (Function.update d k t j) = ∑ j, Real.log (d j) - Real.log (d k) + Real.log t := by
      rw [sum_update (fun _ a => Real.log a)]; ring
    have h1 : ∑ j, (x j / Function.update d k t j) ^ 2 = ∑ j, y j ^ 2 - y k ^ 2 + (x k / t) ^ 2 := by
      rw [sum_update (fun j a => (x j / a) ^ 2), hy]; ring
    have h2 : dot (fun j => x j / Function.update d k t j) v = dot y v - y k * v k + x k / t * v k := by
      rw [hy]
      simp only [dot_def]
      rw [sum_update (fun j a => x j / a * v j)]; ring
    unfold mnorm
    rw [ArrayOps.sum_eq, h0, h1, h2]
  have hev : (fun t => logDensity (covVD (Function.update d k t) v) x) =ᶠ[nhds (d k)] fun t =>
      -(∑ j, Real.log (d j) - Real.log (d k) + Real.log t) - Real.log (1 + normV2 v) / 2 -
        (∑ j, y j ^ 2 - y k ^ 2 + (x k / t) ^ 2 - (dot y v - y k * v k + x k / t * v k) ^ 2 / (1 + normV2 v)) / 2 :=
    (lt_mem_nhds hk).mono fun t ht => e t ht
  refine HasDerivAt.congr_of_eventuallyEq ?_ hev
  have hid : HasDerivAt (fun t : ℝ => t) 1 (d k) := hasDerivAt_id _
  have hx : HasDerivAt (fun t : ℝ => x k / t) ((0 * d k - x k * 1) / d k ^ 2) (d k) := (hasDerivAt_const _ _).div hid hk.ne'
  have hyk : x k / d k = y k := by rw [hy]
  have hval : dot y v - y k * v k + x k / d k * v k = dot y v := by rw [hyk]; ring
  have := ((((hid.log hk.ne').const_add (∑ j, Real.log (d j) - Real.log (d k))).neg).sub_const (Real.log (1 + normV2 v) / 2)).sub
    ((((hx.pow 2).const_add (∑ j, y j ^ 2 - y k ^ 2)).sub
      ((((hx.mul_const (v k)).const_add (dot y v - y k * v k)).pow 2).div_const (1 + normV2 v))).div_const 2)
  refine this.congr_deriv ?_
  simp only [hval]
  have hx' : x k = y k * d k := by rw [← hyk, div_mul_cancel₀ _ hk.ne']
  rw [hx']
  field_simp
  ring

theorem dcovV_eq (k i j : Fin n) : dcovV d v k i j = d i * d j * ((if i = k then v j else 0) + if j = k then v i else 0) := by
  unfold dcovV
  refine HasDerivAt.deriv ?_
  have hu : ∀ l, HasDerivAt (fun t => Function.update v k t l) (if l = k then 1 else 0) (v k) := fun l => by
    split_ifs with h
    · subst h; simp only [Function.update_self]; exact hasDerivAt_id _
    · simp only [Function.update_of_ne h]; exact hasDerivAt_const _ _
  have e : (fun t => covVD d (Function.update v k t) i j) = fun t =>
      d i * ((if i = j then 1 else 0) + Function.update v k t i * Function.update v k t j) * d j := by
    funext t; rw [covVD_eq]; rfl
  rw [e]
  have := ((((hu i).mul (hu j)).const_add (if i = j then (1:ℝ) else 0)).const_mul (d i)).mul_const (d j)
  refine this.congr_deriv ?_
  simp only [Function.update_eq_self]
  split_ifs <;> ring

theorem dcovD_eq (k i j : Fin n) : dcovD d v k i j =
    ((if i = k then d j else 0) + if j = k then d i else 0) * ((if i = j then 1 else 0) + v i * v j) := by
  unfold dcovD
  refine HasDerivAt.deriv ?_
  have hu : ∀ l, HasDerivAt (fun t => Function.update d k t l) (if l = k then 1 else 0) (d k) := fun l => by
    split_ifs with h
    · subst h; simp only [Function.update_self]; exact hasDerivAt_id _
    · simp only [Function.update_of_ne h]; exact hasDerivAt_const _ _
  have e : (fun t => covVD (Function.update d k t) v i j) = fun t =>
      Function.update d k t i * ((if i = j then 1 else 0) + v i * v j) * Function.update d k t j := by
    funext t; rw [covVD_eq]; rfl
  rw [e]
  have := ((hu i).mul_const ((if i = j then (1:ℝ) else 0) + v i * v j)).mul (hu j)
  refine this.congr_deriv ?_
  simp only [Function.update_eq_self]
  split_ifs <;> ring

/-! ### The Fisher information matrix -/

theorem inv_dcovV (hd : ∀ j, 0 < d j) (k i j : Fin n) : (covInv d v * dcovV d v k) i j =
    d j / d i * (binv v i k * v j + v i / (1 + normV2 v) * if j = k then 1 else 0) := by
  rw [Matrix.mul_apply]
  have h1 : ∀ l, covInv d v i l * dcovV d v k l j =
      d j / d i * ((if l = k then binv v i l * v j else 0) + binv v i l * v l * if j = k then 1 else 0) := fun l => by
    rw [dcovV_eq]
    unfold covInv
    have := (hd l).ne'
    have := (hd i).ne'
    split_ifs <;> field_simp <;> ring
  simp only [h1]
  rw [← Finset.mul_sum, Finset.sum_add_distrib, Finset.sum_ite_eq', if_pos (Finset.mem_univ _), ← Finset.sum_mul, binv_v]

theorem inv_dcovD (hd : ∀ j, 0 < d j) (k i j : Fin n) : (covInv d v * dcovD d v k) i j =
    d j / d i * ((binv v i k * ((if k = j then 1 else 0) + v k * v j) + (if i = k then 1 else 0) * if j = k then 1 else 0) / d k) := by
  rw [Matrix.mul_apply]
  have h1 : ∀ l, covInv d v i l * dcovD d v k l j = d j / d i *
      ((if l = k then binv v i l * ((if k = j then 1 else 0) + v k * v j) / d k else 0) +
        (if j = k then binv v i l * ((if l = j then 1 else 0) + v l * v j) / d k else 0)) := fun l => by
    rw [dcovD_eq]
    unfold covInv
    have := (hd l).ne'
    have := (hd i).ne'
    have := (hd k).ne'
    rcases eq_or_ne l k with h | h
    · subst h
      simp only [if_true]
      split_ifs with h2 <;> first | (subst h2; field_simp) | field_simp
      all_goals first | done | ring
    · simp only [if_neg h]
      split_ifs with h2 <;> first | (subst h2; field_simp) | field_simp
      all_goals first | done | ring
  simp only [h1]
  rw [← Finset.mul_sum, Finset.sum_add_distrib, Finset.sum_ite_eq', if_pos (Finset.mem_univ _)]
  congr 1
  rw [add_div]
  congr 1
  rcases eq_or_ne j k with h | h
  · subst h
    simp only [if_true, mul_one]
    rw [← Finset.sum_div]
    congr 1
    have h3 : ∀ l, binv v i l * ((if l = j then 1 else 0) + v l * v j) = (if l = j then binv v i l else 0) + binv v i l * v l * v j := fun l => by
      split_ifs <;> ring
    simp only [h3]
    rw [Finset.sum_add_distrib, Finset.sum_ite_eq', if_pos (Finset.mem_univ _), ← Finset.sum_mul, binv_v]
    unfold binv
    ring
  · simp only [if_neg h, Finset.sum_const_zero, mul_zero, zero_div]

theorem trace_conj {A B : Matrix (Fin n) (Fin n) ℝ} {a1 b1 a2 b2 c1 e1 c2 e2 : Vec ℝ n} (hd : ∀ j, 0 < d j)
    (hA : ∀ i j, A i j = d j / d i * (a1 i * b1 j + a2 i * b2 j)) (hB : ∀ i j, B i j = d j / d i * (c1 i * e1 j + c2 i * e2 j)) :
    (A * B).trace = dot b1 c1 * dot e1 a1 + dot b1 c2 * dot e2 a1 + dot b2 c1 * dot e1 a2 + dot b2 c2 * dot e2 a2 := by
  simp only [dot_def]
  simp only [Matrix.trace, Matrix.diag, Matrix.mul_apply]
  rw [Finset.sum_mul_sum, Finset.sum_mul_sum, Finset.sum_mul_sum, Finset.sum_mul_sum, ← Finset.sum_add_distrib, ← Finset.sum_add_distrib,
    ← Finset.sum_add_distrib]
  rw [Finset.sum_comm]
  refine Finset.sum_congr rfl fun j _ => ?_
  rw [← Finset.sum_add_distrib, ← Finset.sum_add_distrib, ← Finset.sum_add_distrib]
  refine Finset.sum_congr rfl fun i _ => ?_
  rw [hA, hB]
  have := (hd i).ne'
  have := (hd j).ne'
  field_simp
  ring

/-- Unit vectors, columns of `(I + v vᵀ)⁻¹` and of `I + v vᵀ`. -/
noncomputable def ek (k : Fin n) : Vec ℝ n := fun j => if j = k then 1 else 0
noncomputable def bk (v : Vec ℝ n) (k : Fin n) : Vec ℝ n := fun i => binv v i k
noncomputable def rk (v : Vec ℝ n) (k : Fin n) : Vec ℝ n := fun j => (if k = j then 1 else 0) + v k * v j
noncomputable def uu (v : Vec ℝ n) : Vec ℝ n := fun i => v i / (1 + normV2 v)

theorem dot_comm (a b : Vec ℝ n) : dot a b = dot b a := by
  rw [dot_def, dot_def]; exact Finset.sum_congr rfl fun _ _ => mul_comm _ _

theorem dot_ek (w : Vec ℝ n) (k : Fin n) : dot w (ek k) = w k := by
  unfold ek; simp only [dot_def]
  simp

theorem dot_bk (k : Fin n) : dot v (bk v k) = v k / (1 + normV2 v) := by
  unfold bk; simp only [dot_def]
  rw [← binv_v]
  exact Finset.sum_congr rfl fun j _ => by rw [binv_comm, mul_comm]

theorem dot_uu : dot v (uu v) = normV2 v / (1 + normV2 v) := by
  unfold uu normV2; simp only [dot_def]
  rw [Finset.sum_div]
  exact Finset.sum_congr rfl fun j _ => by ring

theorem dot_rk (w : Vec ℝ n) (k : Fin n) : dot (rk v k) w = w k + v k * dot v w := by
  unfold rk; simp only [dot_def]
  simp only [add_mul, Finset.sum_add_distrib, ite_mul, one_mul, zero_mul, Finset.sum_ite_eq, Finset.mem_univ, if_true, Finset.mul_sum, mul_assoc]

theorem rk_bk (k l : Fin n) : dot (rk v k) (bk v l) = if k = l then 1 else 0 := by
  rw [dot_rk, dot_bk]
  unfold bk binv
  ring

theorem rk_uu (k : Fin n) : dot (rk v k) (uu v) = v k := by
  rw [dot_rk, dot_uu]
  unfold uu
  have := one_add_pos v
  field_simp

theorem fisher_vv (hd : ∀ j, 0 < d j) (k l : Fin n) : fisher (covVD d v) (dcovV d v k) (dcovV d v l) =
    v k * v l / (1 + normV2 v) ^ 2 + normV2 v / (1 + normV2 v) * binv v k l := by
  unfold fisher
  rw [covVD_inv hd, trace_conj hd (a1 := bk v k) (b1 := v) (a2 := uu v) (b2 := ek k) (c1 := bk v l) (e1 := v) (c2 := uu v) (e2 := ek l)
    (inv_dcovV hd k) (inv_dcovV hd l)]
  rw [dot_bk, dot_bk, dot_uu, dot_comm (ek l), dot_ek, dot_comm (ek k), dot_ek, dot_comm (ek k), dot_ek, dot_comm (ek l), dot_ek]
  unfold bk uu
  rw [binv_comm l k]
  have := one_add_pos v
  field_simp
  ring

theorem fisher_vd (hd : ∀ j, 0 < d j) (k l : Fin n) : fisher (covVD d v) (dcovV d v k) (dcovD d v l) =
    ((if k = l then v l / (1 + normV2 v) else 0) + v l * binv v k l) / d l := by
  unfold fisher
  rw [covVD_inv hd, trace_conj hd (a1 := bk v k) (b1 := v) (a2 := uu v) (b2 := ek k) (c1 := bk v l) (e1 := fun j => rk v l j / d l)
    (c2 := ek l) (e2 := fun j => ek l j / d l) (inv_dcovV hd k) (fun i j => by rw [inv_dcovD hd]; unfold bk rk ek; ring)]
  have hdiv : ∀ w z : Vec ℝ n, dot (fun j => w j / d l) z = dot w z / d l := fun w z => by
    simp only [dot_def]; rw [Finset.sum_div]; exact Finset.sum_congr rfl fun j _ => by ring
  rw [hdiv, hdiv, hdiv, hdiv, dot_bk, rk_bk, dot_ek, dot_comm (ek l), dot_ek, dot_comm (ek k), dot_ek, rk_uu, dot_ek, dot_comm (ek l), dot_ek]
  unfold bk uu ek
  rw [binv_comm l k]
  rcases eq_or_ne k l with h | h
  · subst h; simp only [if_true]; ring
  · simp only [if_neg h, if_neg h.symm]; ring

theorem fisher_symm (C A B : Matrix (Fin n) (Fin n) ℝ) : fisher C A B = fisher C B A := by
  unfold fisher
  rw [Matrix.trace_mul_comm]

theorem fisher_dd (hd : ∀ j, 0 < d j) (k l : Fin n) : fisher (covVD d v) (dcovD d v k) (dcovD d v l) =
    ((if k = l then 1 else 0) + ((if k = l then 1 else 0) + v k * v l) * binv v k l) / (d k * d l) := by
  unfold fisher
  rw [covVD_inv hd, trace_conj hd (a1 := bk v k) (b1 := fun j => rk v k j / d k) (a2 := ek k) (b2 := fun j => ek k j / d k)
    (c1 := bk v l) (e1 := fun j => rk v l j / d l)
    (c2 := ek l) (e2 := fun j => ek l j / d l) (fun i j => by rw [inv_dcovD hd]; unfold bk rk ek; ring)
    (fun i j => by rw [inv_dcovD hd]; unfold bk rk ek; ring)]
  have hdiv : ∀ (c : ℝ) (w z : Vec ℝ n), dot (fun j => w j / c) z = dot w z / c := fun c w z => by
    simp only [dot_def]; rw [Finset.sum_div]; exact Finset.sum_congr rfl fun j _ => by ring
  simp only [hdiv]
  rw [rk_bk, rk_bk, dot_ek, dot_comm (ek l), dot_ek, dot_comm (ek k), dot_ek, dot_ek, dot_ek, dot_ek]
  unfold bk rk ek
  rw [binv_comm l k]
  have := (hd k).ne'
  have := (hd l).ne'
  rcases eq_or_ne k l with h | h
  · subst h; simp only [if_true]; field_simp; ring
  · simp only [if_neg h, if_neg h.symm]; field_simp; ring

/-! ### The system solved by `ngv_ngd` -/

/-- `beta` belongs to `alpha`. -/
theorem beta_eq (h : 0 < normV2 v) : (alphaBeta v).2 = (1 - (alphaBeta v).1 ^ 2) * normV2 v ^ 2 / (1 + normV2 v) := by
  rcases alphaBeta_cases h with ⟨hr, h1, h2⟩ | ⟨hr, h1⟩
  · rw [h2, h1]
    have h3 : (2 + normV2 v) ≠ 0 := by linarith
    have h4 : (1 + 2 / normV2 v) = (2 + normV2 v) / normV2 v := by field_simp; ring
    have h5 := (one_add_pos v).ne'
    rw [h4]
    field_simp
    ring
  · rw [h1]; norm_num

/-- The rank-one correction of `svec`: `(diag(avec) + bsca vnn vnnᵀ) svec = rvec`. -/
theorem sherman (h : 0 < normV2 v) (r : Vec ℝ n) (S : Vec ℝ n)
    (hS : S = fun j => r j / avec v j - bsca v * dot r (invavnn v) / denom v * invavnn v j) (k : Fin n) :
    avec v k * S k + bsca v * vnn v k * dot S (vnn v) = r k := by
  have ha := fun j => (avec_pos h j).ne'
  have hD := (denom_pos h).ne'
  have hT : dot S (vnn v) = dot r (invavnn v) - bsca v * dot r (invavnn v) / denom v * dot (vnn v) (invavnn v) := by
    rw [hS]
    generalize bsca v * dot r (invavnn v) / denom v = c
    unfold invavnn; simp only [dot_def]
    rw [Finset.mul_sum, ← Finset.sum_sub_distrib]
    exact Finset.sum_congr rfl fun j _ => by ring
  have hd : denom v = 1 + bsca v * dot (vnn v) (invavnn v) := rfl
  have hT2 : dot S (vnn v) = dot r (invavnn v) / denom v := by
    rw [hT]
    field_simp
    rw [hd]; ring
  rw [hT2, hS]
  have : invavnn v k = vnn v k / avec v k := rfl
  simp only [this]
  have := ha k
  field_simp
  ring

theorem vn_mul (h : 0 < normV2 v) (j : Fin n) : v j = normV v * vn v j := by
  have : normV v ≠ 0 := (Real.sqrt_pos.2 h).ne'
  unfold vn
  field_simp

/-- What is known about the output of `ngv_ngd`, in terms of `S = gd / d` and `T = S . vnn`. -/
theorem ngvNgd_facts (h : 0 < normV2 v) (d p q : Vec ℝ n) : ∃ S : Vec ℝ n, ∃ T : ℝ, T = dot S (vnn v) ∧
    (∀ j, (ngvNgd d v p q).2 j = d j * S j) ∧
    (∀ j, (ngvNgd d v p q).1 j = q j / normV v - (alphaBeta v).1 / normV v * ((2 + normV2 v) * (vn v j * S j) - T * vn v j)) ∧
    ∀ k, avec v k * S k + bsca v * vnn v k * T =
      p k - (alphaBeta v).1 / (1 + normV2 v) * ((2 + normV2 v) * q k * vn v k - normV2 v * dot (vn v) q * vnn v k) :=
  ⟨_, _, rfl, fun _ => rfl, fun _ => rfl, fun k => sherman h (fun j => p j - (alphaBeta v).1 / (1 + normV2 v) *
    ((2 + normV2 v) * q j * vn v j - normV2 v * dot (vn v) q * vnn v j)) _ rfl k⟩

theorem dot_v_ngv (h : 0 < normV2 v) (d p q S : Vec ℝ n) (T : ℝ) (hT : T = dot S (vnn v))
    (h1 : ∀ j, (ngvNgd d v p q).1 j = q j / normV v - (alphaBeta v).1 / normV v * ((2 + normV2 v) * (vn v j * S j) - T * vn v j)) :
    ∑ l, v l * (ngvNgd d v p q).1 l = dot (vn v) q - (alphaBeta v).1 * ((1 + normV2 v) * T) := by
  have hn : normV v ≠ 0 := (Real.sqrt_pos.2 h).ne'
  have e : ∀ l, v l * (ngvNgd d v p q).1 l = vn v l * q l - (alphaBeta v).1 * (2 + normV2 v) * (S l * vnn v l) +
      (alphaBeta v).1 * T * vnn v l := fun l => by
    rw [h1, vn_mul h l]
    have : vn (v) l = vn v l := rfl
    unfold vnn
    field_simp
    ring
  simp only [e]
  rw [Finset.sum_add_distrib, Finset.sum_sub_distrib, ← Finset.mul_sum, ← Finset.mul_sum, vnn_sum h]
  have : ∑ l, S l * vnn v l = T := hT.symm
  rw [this]
  simp only [dot_def]
  ring

theorem solves_v (hd : ∀ j, 0 < d j) (h : 0 < normV2 v) (p q : Vec ℝ n) (k : Fin n) :
    ∑ l, fisher (covVD d v) (dcovV d v k) (dcovV d v l) * (ngvNgd d v p q).1 l +
      (alphaBeta v).1 * ∑ l, fisher (covVD d v) (dcovV d v k) (dcovD d v l) * (ngvNgd d v p q).2 l =
    normV2 v / (1 + normV2 v) * (q k / normV v) + (1 - normV2 v) / (1 + normV2 v) ^ 2 * v k * dot (vn v) q := by
  obtain ⟨S, T, hT, h2, h1, -⟩ := ngvNgd_facts h d p q
  have hW := dot_v_ngv h d p q S T hT h1
  have hn : normV v ≠ 0 := (Real.sqrt_pos.2 h).ne'
  have hp := (one_add_pos v).ne'
  have e1 : ∑ l, fisher (covVD d v) (dcovV d v k) (dcovV d v l) * (ngvNgd d v p q).1 l =
      v k / (1 + normV2 v) ^ 2 * (∑ l, v l * (ngvNgd d v p q).1 l) +
        normV2 v / (1 + normV2 v) * (∑ l, binv v k l * (ngvNgd d v p q).1 l) := by
    rw [Finset.mul_sum, Finset.mul_sum, ← Finset.sum_add_distrib]
    exact Finset.sum_congr rfl fun l _ => by rw [fisher_vv hd]; ring
  have e2 : ∑ l, fisher (covVD d v) (dcovV d v k) (dcovD d v l) * (ngvNgd d v p q).2 l =
      v k / (1 + normV2 v) * S k + ∑ l, binv v k l * (v l * S l) := by
    have : ∀ l, fisher (covVD d v) (dcovV d v k) (dcovD d v l) * (ngvNgd d v p q).2 l =
        (if k = l then v l / (1 + normV2 v) * S l else 0) + binv v k l * (v l * S l) := fun l => by
      rw [fisher_vd hd, h2]
      have := (hd l).ne'
      split_ifs <;> field_simp <;> ring
    simp only [this]
    rw [Finset.sum_add_distrib, Finset.sum_ite_eq, if_pos (Finset.mem_univ _)]
  have e3 : ∑ l, v l * (v l * S l) = normV2 v * T := by
    rw [hT]
    simp only [dot_def]
    rw [Finset.mul_sum]
    refine Finset.sum_congr rfl fun l _ => ?_
    rw [vnn_eq]
    have := h.ne'
    field_simp
  rw [e1, e2, sum_binv, sum_binv, e3, hW, h1 k, vn_mul h k]
  have hs : normV2 v = normV v ^ 2 := normV_sq.symm
  rw [hs] at hp ⊢
  field_simp
  ring

theorem solves_d (hd : ∀ j, 0 < d j) (h : 0 < normV2 v) (p q : Vec ℝ n) (k : Fin n) :
    (alphaBeta v).1 * ∑ l, fisher (covVD d v) (dcovD d v k) (dcovV d v l) * (ngvNgd d v p q).1 l +
      ∑ l, fisher (covVD d v) (dcovD d v k) (dcovD d v l) * (ngvNgd d v p q).2 l = p k / d k := by
  obtain ⟨S, T, hT, h2, h1, h3⟩ := ngvNgd_facts h d p q
  have hW := dot_v_ngv h d p q S T hT h1
  have hn : normV v ≠ 0 := (Real.sqrt_pos.2 h).ne'
  have hp := (one_add_pos v).ne'
  have hk := (hd k).ne'
  have e1 : ∑ l, fisher (covVD d v) (dcovD d v k) (dcovV d v l) * (ngvNgd d v p q).1 l =
      (v k / (1 + normV2 v) * (ngvNgd d v p q).1 k + v k * ∑ l, binv v k l * (ngvNgd d v p q).1 l) / d k := by
    have : ∀ l, fisher (covVD d v) (dcovD d v k) (dcovV d v l) * (ngvNgd d v p q).1 l =
        (if k = l then v k / (1 + normV2 v) * (ngvNgd d v p q).1 l / d k else 0) + v k / d k * (binv v k l * (ngvNgd d v p q).1 l) := fun l => by
      rw [fisher_symm, fisher_vd hd, binv_comm]
      rcases eq_or_ne k l with h | h
      · subst h; simp only [if_true]; ring
      · simp only [if_neg h, if_neg h.symm]; ring
    simp only [this]
    rw [Finset.sum_add_distrib, Finset.sum_ite_eq, if_pos (Finset.mem_univ _), ← Finset.mul_sum]
    ring
  have e2 : ∑ l, fisher (covVD d v) (dcovD d v k) (dcovD d v l) * (ngvNgd d v p q).2 l =
      (S k + binv v k k * S k + v k * ∑ l, binv v k l * (v l * S l)) / d k := by
    have : ∀ l, fisher (covVD d v) (dcovD d v k) (dcovD d v l) * (ngvNgd d v p q).2 l =
        (if k = l then (S l + binv v k l * S l) / d k else 0) + v k / d k * (binv v k l * (v l * S l)) := fun l => by
      rw [fisher_dd hd, h2]
      have := (hd l).ne'
      split_ifs <;> field_simp <;> ring
    simp only [this]
    rw [Finset.sum_add_distrib, Finset.sum_ite_eq, if_pos (Finset.mem_univ _), ← Finset.mul_sum]
    ring
  have e3 : ∑ l, v l * (v l * S l) = normV2 v * T := by
    rw [hT]
    simp only [dot_def]
    rw [Finset.mul_sum]
    refine Finset.sum_congr rfl fun l _ => ?_
    rw [vnn_eq]
    have := h.ne'
    field_simp
  have hb : binv v k k = 1 - v k * v k / (1 + normV2 v) := by unfold binv; rw [if_pos rfl]
  have hp' : p k = avec v k * S k + bsca v * vnn v k * T +
      (alphaBeta v).1 / (1 + normV2 v) * ((2 + normV2 v) * q k * vn v k - normV2 v * dot (vn v) q * vnn v k) := by
    rw [h3 k]; ring
  rw [e1, e2, sum_binv, sum_binv, e3, hW, h1 k, hb, hp']
  unfold avec bsca
  rw [beta_eq h, vn_mul h k]
  have : vnn v k = vn v k ^ 2 := rfl
  rw [this]
  have hs : normV2 v = normV v ^ 2 := normV_sq.symm
  rw [hs] at hp ⊢
  field_simp
  ring

/-! ### Natural gradients -/

theorem grad_v (h : 0 < normV2 v) (y : Vec ℝ n) (k : Fin n) :
    -v k / (1 + normV2 v) + dot y v * y k / (1 + normV2 v) - dot y v ^ 2 * v k / (1 + normV2 v) ^ 2 =
    normV2 v / (1 + normV2 v) * ((pq v y).2 k / normV v) + (1 - normV2 v) / (1 + normV2 v) ^ 2 * v k * dot (vn v) (pq v y).2 := by
  have hn : normV v ≠ 0 := (Real.sqrt_pos.2 h).ne'
  have hp := (one_add_pos v).ne'
  have e1 : dot y v = normV v * dot y (vn v) := by
    simp only [dot_def]
    rw [Finset.mul_sum]
    exact Finset.sum_congr rfl fun j _ => by rw [vn_mul h j]; ring
  have e2 : dot (vn v) (pq v y).2 = dot y (vn v) ^ 2 - 1 / 2 * (dot y (vn v) ^ 2 + 1 + normV2 v) := by
    have : dot (vn v) (pq v y).2 = dot y (vn v) * dot y (vn v) - 1 / 2 * (dot y (vn v) ^ 2 + 1 + normV2 v) * ∑ j, vnn v j := by
      unfold pq
      dsimp only
      conv_rhs => lhs; rhs; simp only [dot_def]
      generalize dot y (vn v) = c
      simp only [dot_def]
      rw [Finset.mul_sum, Finset.mul_sum, ← Finset.sum_sub_distrib]
      exact Finset.sum_congr rfl fun j _ => by
        have : vnn v j = vn v j ^ 2 := rfl
        rw [this]; ring
    rw [this, vnn_sum h]; ring
  have e3 : (pq v y).2 k = dot y (vn v) * y k - 1 / 2 * (dot y (vn v) ^ 2 + 1 + normV2 v) * vn v k := rfl
  rw [e1, e2, e3, vn_mul h k]
  have hs : normV2 v = normV v ^ 2 := normV_sq.symm
  rw [hs] at hp ⊢
  field_simp
  ring

theorem grad_d (h : 0 < normV2 v) (y : Vec ℝ n) (k : Fin n) :
    (-1 + y k ^ 2 - dot y v * y k * v k / (1 + normV2 v)) / d k = (pq v y).1 k / d k := by
  have e1 : dot y v = normV v * dot y (vn v) := by
    simp only [dot_def]
    rw [Finset.mul_sum]
    exact Finset.sum_congr rfl fun j _ => by rw [vn_mul h j]; ring
  have e3 : (pq v y).1 k = y k ^ 2 - normV2 v / (1 + normV2 v) * (dot y (vn v) * y k * vn v k) - 1 := rfl
  rw [e1, e3, vn_mul h k, ← normV_sq]
  ring

theorem dot_sum {ι : Type} (s : Finset ι) (c : ι → ℝ) (w : Vec ℝ n) (z : ι → Vec ℝ n) :
    dot w (fun j => ∑ a ∈ s, c a * z a j) = ∑ a ∈ s, c a * dot w (z a) := by
  simp only [dot_def]
  simp only [Finset.mul_sum]
  rw [Finset.sum_comm]
  exact Finset.sum_congr rfl fun a _ => Finset.sum_congr rfl fun j _ => by ring

/-- The gradient of a weighted sum of log-densities, in terms of the two vectors. -/
theorem hasDeriv_v {ι : Type} (s : Finset ι) (c : ι → ℝ) (x : ι → Vec ℝ n) (hd : ∀ j, 0 < d j) (h : 0 < normV2 v) (q : Vec ℝ n)
    (hq : q = fun j => ∑ a ∈ s, c a * (pq v fun j => x a j / d j).2 j) (k : Fin n) :
    HasDerivAt (fun t => ∑ a ∈ s, c a * logDensity (covVD d (Function.update v k t)) (x a))
      (normV2 v / (1 + normV2 v) * (q k / normV v) + (1 - normV2 v) / (1 + normV2 v) ^ 2 * v k * dot (vn v) q) (v k) := by
  have := HasDerivAt.fun_sum (u := s) fun a _ => ((deriv_v (v := v) hd (x a) k _ rfl).const_mul (c a))
  refine this.congr_deriv ?_
  rw [hq, dot_sum, Finset.sum_div, Finset.mul_sum, Finset.mul_sum, ← Finset.sum_add_distrib]
  refine Finset.sum_congr rfl fun a _ => ?_
  rw [grad_v h]
  ring

theorem hasDeriv_d {ι : Type} (s : Finset ι) (c : ι → ℝ) (x : ι → Vec ℝ n) (hd : ∀ j, 0 < d j) (h : 0 < normV2 v) (p : Vec ℝ n)
    (hp : p = fun j => ∑ a ∈ s, c a * (pq v fun j => x a j / d j).1 j) (k : Fin n) :
    HasDerivAt (fun t => ∑ a ∈ s, c a * logDensity (covVD (Function.update d k t) v) (x a)) (p k / d k) (d k) := by
  have := HasDerivAt.fun_sum (u := s) fun a _ => ((deriv_d (v := v) hd (x a) k _ rfl).const_mul (c a))
  refine this.congr_deriv ?_
  rw [hp, Finset.sum_div]
  refine Finset.sum_congr rfl fun a _ => ?_
  exact (congrArg (c a * ·) (grad_d (d := d) h (fun j => x a j / d j) k)).trans (mul_div_assoc ..).symm

theorem naturalGradient {ι : Type} (s : Finset ι) (c : ι → ℝ) (x : ι → Vec ℝ n) (hd : ∀ j, 0 < d j) (h : 0 < normV2 v) (p q : Vec ℝ n)
    (hp : p = fun j => ∑ a ∈ s, c a * (pq v fun j => x a j / d j).1 j)
    (hq : q = fun j => ∑ a ∈ s, c a * (pq v fun j => x a j / d j).2 j) :
    NaturalGradient (alphaBeta v).1 (fun d v => ∑ a ∈ s, c a * logDensity (covVD d v) (x a)) d v (ngvNgd d v p q).1 (ngvNgd d v p q).2 :=
  ⟨fun k => by rw [solves_v hd h]; exact hasDeriv_v s c x hd h q hq k,
   fun k => by rw [solves_d hd h]; exact hasDeriv_d s c x hd h p hp k⟩

/-- The direction vanishes only where the gradient does. -/
theorem ngvNgd_zero (hd : ∀ j, 0 < d j) (h : 0 < normV2 v) (p q : Vec ℝ n)
    (h1 : ∀ k, normV2 v / (1 + normV2 v) * (q k / normV v) + (1 - normV2 v) / (1 + normV2 v) ^ 2 * v k * dot (vn v) q = 0)
    (h2 : ∀ k, p k / d k = 0) : ngvNgd d v p q = (fun _ => 0, fun _ => 0) := by
  have hn : normV v ≠ 0 := (Real.sqrt_pos.2 h).ne'
  have hpos := one_add_pos v
  have hp : p = fun _ => 0 := funext fun k => by
    have := h2 k
    rw [div_eq_zero_iff] at this
    exact this.resolve_right (hd k).ne'
  have hQ : dot (vn v) q = 0 := by
    have e : ∑ k, vn v k * (normV2 v / (1 + normV2 v) * (q k / normV v) + (1 - normV2 v) / (1 + normV2 v) ^ 2 * v k * dot (vn v) q) = 0 := by
      simp only [h1, mul_zero, Finset.sum_const_zero]
    have e2 : ∀ k, vn v k * (normV2 v / (1 + normV2 v) * (q k / normV v) + (1 - normV2 v) / (1 + normV2 v) ^ 2 * v k * dot (vn v) q) =
        normV2 v / (1 + normV2 v) / normV v * (vn v k * q k) + (1 - normV2 v) / (1 + normV2 v) ^ 2 * normV v * dot (vn v) q * vnn v k := fun k => by
      have : vnn v k = vn v k ^ 2 := rfl
      rw [this]
      rw [vn_mul h k]
      ring
    simp only [e2] at e
    rw [Finset.sum_add_distrib, ← Finset.mul_sum, ← Finset.mul_sum, vnn_sum h] at e
    change normV2 v / (1 + normV2 v) / normV v * dot (vn v) q + _ = 0 at e
    have e3 : 2 * normV v / (1 + normV2 v) ^ 2 * dot (vn v) q = 0 := by
      rw [← e]
      have hs : normV2 v = normV v ^ 2 := normV_sq.symm
      rw [hs] at hpos ⊢
      field_simp
      ring
    rcases mul_eq_zero.1 e3 with h3 | h3
    · exact absurd h3 (div_ne_zero (mul_ne_zero two_ne_zero hn) (pow_ne_zero _ hpos.ne'))
    · exact h3
  have hq : q = fun _ => 0 := funext fun k => by
    have := h1 k
    rw [hQ, mul_zero, add_zero] at this
    rcases mul_eq_zero.1 this with h3 | h3
    · exact absurd h3 (div_ne_zero h.ne' hpos.ne')
    · rw [div_eq_zero_iff] at h3
      exact h3.resolve_right hn
  rw [hp, hq]
  unfold ngvNgd; simp only [dot_def]
  simp

theorem alpha_range (h : 0 < normV2 v) : 0 < (alphaBeta v).1 ∧ (alphaBeta v).1 ≤ 1 := by
  have h2 : 0 < 2 + normV2 v := by linarith
  have hr := ratio_pos h
  have hc := alphaBeta_cases h
  have key : 0 ≤ (alphaBeta v).1 ∧ (alphaBeta v).1 ≤ 1 := by
    unfold alphaBeta
    dsimp only
    split_ifs with hlt
    · exact ⟨div_nonneg (Real.sqrt_nonneg _) h2.le, hlt.le⟩
    · exact ⟨zero_le_one, le_refl _⟩
  refine ⟨lt_of_le_of_ne key.1 fun h0 => ?_, key.2⟩
  rcases hc with ⟨-, h3, -⟩ | ⟨-, h3⟩
  · rw [← h0] at h3
    have : 0 < (normV2 v ^ 2 + (1 + normV2 v) * ratio v) / (2 + normV2 v) ^ 2 := by positivity
    rw [← h3] at this
    norm_num at this
  · rw [h3] at h0
    exact zero_ne_one h0

theorem alpha_one (h : 0 < normV2 v) (hv : ∀ j, v j ^ 2 ≤ 1 / 4 * normV2 v) : (alphaBeta v).1 = 1 := by
  rcases alphaBeta_cases h with ⟨hr, -⟩ | ⟨-, h3⟩
  · exfalso
    have hm : vmax (vnn v) ≤ 1 / 4 := vmax_le (by norm_num) fun j => by
      rw [vnn_eq, div_le_iff₀ h]; exact hv j
    have h1 := ratio_mul h
    have h2 := gamma_lt h
    have h3 := vmax_pos h
    have h4 := ratio_pos h
    nlinarith
  · rw [h3]

end

/-! ### The increments -/

section
variable {σ : Type} {p n : Nat} {P : Par σ ℝ p n} {d v : Vec ℝ n}

/-- Coefficients and steps of the weighted log-likelihood: `none` is the evolution path. -/
noncomputable def coef (P : Par σ ℝ p n) (me : ℝ) (cond : Bool) : Option (Fin P.mu) → ℝ
  | none => if cond then c1 n me else 0
  | some k => cmu n me * weights P.mu k

noncomputable def stepOf (P : Par σ ℝ p n) (order : Equiv.Perm (Fin p)) (pc : Vec ℝ n) (ary : Pop ℝ p n) : Option (Fin P.mu) → Vec ℝ n
  | none => pc
  | some k => ary (order (Fin.castLE P.hmu k))

theorem increments_eq {me : ℝ} {order : Equiv.Perm (Fin p)} {cond : Bool} {pc : Vec ℝ n} {ary : Pop ℝ p n}
    (h : 0 < cmu n me + c1 n me) : ∃ a b : Vec ℝ n,
      (a = fun j => ∑ i, coef P me cond i * (pq v fun j => stepOf P order pc ary i j / d j).1 j) ∧
      (b = fun j => ∑ i, coef P me cond i * (pq v fun j => stepOf P order pc ary i j / d j).2 j) ∧
      increments P me order cond pc d v ary =
        (fun j => upfactor d v (ngvNgd d v a b).1 (ngvNgd d v a b).2 * (ngvNgd d v a b).1 j,
         fun j => upfactor d v (ngvNgd d v a b).1 (ngvNgd d v a b).2 * (ngvNgd d v a b).2 j) := by
  refine ⟨_, _, ?_, ?_, if_pos h⟩
  · funext j
    rw [Fintype.sum_option]
    simp only [coef, stepOf]
    rw [add_comm]
    congr 1
    · by_cases hc : c1 n me = 0
      · rw [if_pos hc]; simp [hc]
      · rw [if_neg hc]; split_ifs <;> simp
    · by_cases hc : cmu n me = 0
      · rw [if_pos hc]; simp [hc]
      · rw [if_neg hc]
        simp only [pqMu, pqRow_eq, ArrayOps.dot_eq, Finset.mul_sum, mul_assoc]
  · funext j
    rw [Fintype.sum_option]
    simp only [coef, stepOf]
    rw [add_comm]
    congr 1
    · by_cases hc : c1 n me = 0
      · rw [if_pos hc]; simp [hc]
      · rw [if_neg hc]; split_ifs <;> simp
    · by_cases hc : cmu n me = 0
      · rw [if_pos hc]; simp [hc]
      · rw [if_neg hc]
        simp only [pqMu, pqRow_eq, ArrayOps.dot_eq, Finset.mul_sum, mul_assoc]

end

end Stochopy.VDCMA
