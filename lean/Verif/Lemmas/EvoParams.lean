import Verif.Base.Lawful
import Verif.Model.VDCMA
import Mathlib.Algebra.BigOperators.Field
import Mathlib.Algebra.Order.BigOperators.Group.Finset
import Mathlib.Algebra.Order.Chebyshev
import Mathlib.Tactic.Linarith
import Mathlib.Tactic.Positivity
import Mathlib.Tactic.FieldSimp

/-! Strategy parameters of `cmaes` and `vdcma`. -/

set_option linter.unusedSectionVars false

namespace Stochopy.Evo
variable {K : Type} [Field K] [LinearOrder K] [IsStrictOrderedRing K] [NumFns K] [LawfulNumFns K]

section
variable {mu : Nat}

theorem rawWeight_pos (k : Fin mu) : 0 < rawWeight (K := K) mu k := by
  unfold rawWeight
  refine sub_pos.2 (LawfulNumFns.log_lt _ _ (by positivity) ?_)
  have : (k.val : K) + 1 ≤ (mu : K) := by exact_mod_cast k.isLt
  linarith

theorem rawWeight_lt {i j : Fin mu} (h : i < j) : rawWeight (K := K) mu j < rawWeight mu i := by
  unfold rawWeight
  have hij : ((i.val : K)) < (j.val : K) := by exact_mod_cast h
  have := LawfulNumFns.log_lt ((i.val : K) + 1) ((j.val : K) + 1) (by positivity) (by linarith)
  linarith

theorem sum_rawWeight_pos (h : 0 < mu) : 0 < ∑ i, rawWeight (K := K) mu i :=
  Finset.sum_pos (fun i _ => rawWeight_pos i) ⟨⟨0, h⟩, Finset.mem_univ _⟩

theorem weights_pos (k : Fin mu) : 0 < weights (K := K) mu k :=
  div_pos (rawWeight_pos k) (sum_rawWeight_pos k.pos)

theorem weights_lt {i j : Fin mu} (h : i < j) : weights (K := K) mu j < weights mu i :=
  div_lt_div_of_pos_right (rawWeight_lt h) (sum_rawWeight_pos i.pos)

theorem weights_sum (h : 0 < mu) : ∑ k, weights (K := K) mu k = 1 := by
  unfold weights
  rw [← Finset.sum_div, ArrayOps.sum_eq, div_self (sum_rawWeight_pos h).ne']

theorem weights_le_one (k : Fin mu) : weights (K := K) mu k ≤ 1 := by
  rw [← weights_sum (K := K) k.pos]
  exact Finset.single_le_sum (f := fun k => weights (K := K) mu k) (fun i _ => (weights_pos i).le) (Finset.mem_univ k)

theorem sum_sq_pos (h : 0 < mu) : 0 < ∑ k, weights (K := K) mu k ^ 2 :=
  Finset.sum_pos (fun i _ => pow_pos (weights_pos i) 2) ⟨⟨0, h⟩, Finset.mem_univ _⟩

theorem sum_sq_le (h : 0 < mu) : ∑ k, weights (K := K) mu k ^ 2 ≤ 1 := by
  rw [← weights_sum (K := K) h]
  refine Finset.sum_le_sum fun i _ => ?_
  have h1 := weights_pos (K := K) i
  have h2 := weights_le_one (K := K) i
  nlinarith

theorem mueff_eq (h : 0 < mu) : mueff (K := K) mu = 1 / ∑ k, weights (K := K) mu k ^ 2 := by
  unfold mueff; rw [ArrayOps.sum_eq, ArrayOps.sum_eq, weights_sum h, one_pow]

theorem one_le_mueff (h : 0 < mu) : 1 ≤ mueff (K := K) mu := by
  rw [mueff_eq h, le_div_iff₀ (sum_sq_pos h), one_mul]; exact sum_sq_le h

theorem mueff_le (h : 0 < mu) : mueff (K := K) mu ≤ mu := by
  rw [mueff_eq h, div_le_iff₀ (sum_sq_pos h)]
  have := sq_sum_le_card_mul_sum_sq (s := Finset.univ) (f := fun k : Fin mu => weights (K := K) mu k)
  rw [weights_sum h, one_pow, Finset.card_univ, Fintype.card_fin] at this
  exact this

theorem mueff_pos (h : 0 < mu) : 0 < mueff (K := K) mu := lt_of_lt_of_le one_pos (one_le_mueff h)

end

section
variable {n : Nat} {me : K}

theorem cc_pos (hn : 0 < n) (hm : 1 ≤ me) : 0 < cc n me := by
  have hn' : (0 : K) < n := by exact_mod_cast hn
  have hm' : (0 : K) < me := by linarith
  unfold cc; positivity

theorem cc_lt_one (hn : 0 < n) (hm : 1 ≤ me) : cc n me < 1 := by
  have hn' : (0 : K) < n := by exact_mod_cast hn
  have hm' : (0 : K) < me := by linarith
  unfold cc
  rw [div_lt_one (by positivity)]
  have : 0 < me / n := by positivity
  have h2 : 2 * me / (n : K) = 2 * (me / n) := by ring
  rw [h2]; linarith

end
end Stochopy.Evo

namespace Stochopy.CMAES
open Evo
variable {K : Type} [Field K] [LinearOrder K] [IsStrictOrderedRing K] [NumFns K] [LawfulNumFns K] {n : Nat} {me : K}

theorem cs_pos (hm : 1 ≤ me) : 0 < cs n me := by
  have : (0 : K) < me := by linarith
  unfold cs; positivity

theorem cs_lt_one (hm : 1 ≤ me) : cs n me < 1 := by
  have hm' : (0 : K) < me := by linarith
  unfold cs
  rw [div_lt_one (by positivity)]
  have : (0 : K) ≤ n := Nat.cast_nonneg n
  linarith

theorem c1_pos (hm : 1 ≤ me) : 0 < c1 n me := by
  have : (0 : K) < me := by linarith
  unfold c1; positivity

theorem c1_lt_one (hn : 0 < n) (hm : 1 ≤ me) : c1 n me < 1 := by
  have hn' : (1 : K) ≤ n := by exact_mod_cast hn
  unfold c1
  rw [div_lt_one (by positivity)]
  nlinarith

theorem two_le (hm : 1 ≤ me) : 0 ≤ me - 2 + 1 / me := by
  have hm' : (0 : K) < me := by linarith
  have h : me - 2 + 1 / me = (me - 1) ^ 2 / me := by field_simp; ring
  rw [h]; positivity

theorem cmu_nonneg (hn : 0 < n) (hm : 1 ≤ me) : 0 ≤ cmu n me := by
  unfold cmu
  refine le_min (by have := c1_lt_one (me := me) hn hm; linarith) ?_
  have := two_le hm
  positivity

theorem c1_add_cmu_le (n : Nat) (me : K) : c1 n me + cmu n me ≤ 1 := by
  have : cmu n me ≤ 1 - c1 n me := min_le_left _ _
  linarith

/-- The covariance matrix keeps a share of its old value. -/
theorem c1_add_cmu_lt (hm : 1 ≤ me) (h : me < ((n : K) + 13 / 10) ^ 2) : c1 n me + cmu n me < 1 := by
  have hm' : (0 : K) < me := by linarith
  have hn : (0 : K) ≤ n := Nat.cast_nonneg n
  have h1 : cmu n me ≤ 2 * (me - 2 + 1 / me) / (((n : K) + 2) ^ 2 + me) := min_le_right _ _
  have h2 : 2 * (me - 2 + 1 / me) / (((n : K) + 2) ^ 2 + me) ≤ 1 - 1 / me := by
    rw [div_le_iff₀ (by positivity)]
    have h3 : 1 / me ≤ 1 := by rw [div_le_one hm']; exact hm
    have h4 : 2 * me ≤ ((n : K) + 2) ^ 2 + me := by nlinarith
    have h5 : 0 ≤ 1 - 1 / me := by linarith
    have h6 : (1 - 1 / me) * (2 * me) = 2 * (me - 1) := by field_simp
    have h7 := mul_le_mul_of_nonneg_left h4 h5
    rw [h6] at h7
    linarith
  have h8 : c1 n me < 1 / me := by
    unfold c1
    rw [div_lt_div_iff₀ (by positivity) hm']
    linarith
  linarith

theorem one_lt_damps (hm : 1 ≤ me) : 1 < damps n me := by
  unfold damps
  have := cs_pos (n := n) hm
  have h2 : (0 : K) ≤ max 0 (NumFns.sqrt ((me - 1) / ((n : K) + 1)) - 1) := le_max_left _ _
  linarith

theorem chind_pos (hn : 0 < n) : 0 < chind (K := K) n := by
  have hn' : (1 : K) ≤ n := by exact_mod_cast hn
  unfold chind
  refine mul_pos (LawfulNumFns.sqrt_pos _ (by linarith)) ?_
  have h1 : 1 / (4 * (n : K)) < 1 := by rw [div_lt_one (by linarith)]; linarith
  have h2 : (0 : K) < 1 / (21 * (n : K) ^ 2) := by positivity
  linarith

end Stochopy.CMAES
