import Verif.Base.Rounding
import Verif.Lemmas.PSORun
import Verif.Lemmas.Box

/-! Rounding errors in `Shrink`, in the neighbourhood algorithm and in Latin hypercubes. -/

set_option linter.unusedSectionVars false

namespace Stochopy
open Spec

/-- The relative error of rounding is at most `2 ^ (-53)`. -/
theorem rd_rel (x : ℚ) : |rd x - x| ≤ 2 ^ (-53 : ℤ) * |x| := by
  have pos : ∀ y : ℚ, 0 < y → |rd y - y| ≤ 2 ^ (-53 : ℤ) * |y| := by
    intro y hy
    refine (rd_near hy).trans ?_
    rw [abs_of_pos hy, sub_eq_add_neg, zpow_add₀ (by norm_num), mul_comm]
    exact mul_le_mul_of_nonneg_left (lg_spec hy).1 (by positivity)
  rcases lt_trichotomy x 0 with h | h | h
  · have := pos (-x) (by linarith)
    rw [rd_neg, abs_neg] at this
    rw [← abs_neg]
    convert this using 2
    ring
  · subst h; simp [rd_zero]
  · exact pos x h

theorem rd_le_rel {x : ℚ} (h : 0 ≤ x) : rd x ≤ x * (1 + 2 ^ (-53 : ℤ)) := by
  have := (abs_le.1 (rd_rel x)).2
  rw [abs_of_nonneg h] at this
  linarith

theorem rel_le_rd {x : ℚ} (h : x ≤ 0) : x * (1 + 2 ^ (-53 : ℤ)) ≤ rd x := by
  have := rd_le_rel (x := -x) (by linarith)
  rw [rd_neg] at this
  linarith

namespace F64

theorem zero_val : (0 : F64).1 = 0 := rfl
theorem add_val (a b : F64) : (a + b).1 = rd (a.1 + b.1) := rfl
theorem sub_val (a b : F64) : (a - b).1 = rd (a.1 - b.1) := rfl
theorem mul_val (a b : F64) : (a * b).1 = rd (a.1 * b.1) := rfl
theorem div_val (a b : F64) : (a / b).1 = rd (a.1 / b.1) := rfl

end F64

namespace CPSO
open F64

variable {n : Nat} {lower upper X V : Vec F64 n}

theorem ratio_up (hX : InBox lower upper X) {j : Fin n} (h : upper j < X j + V j) :
    0 < (V j).1 ∧ 0 ≤ (upper j - X j) / V j ∧ (upper j - X j) / V j ≤ 1 ∧
      (V j).1 * ((upper j - X j) / V j).1 ≤ ((upper j).1 - (X j).1) * (1 + 2 ^ (-53 : ℤ)) ^ 2 := by
  have h1 : (upper j).1 < (X j).1 + (V j).1 := lt_of h
  have h2 : (X j).1 ≤ (upper j).1 := (hX j).2
  have hv : 0 < (V j).1 := by linarith
  have hd0 : (0 : F64) ≤ upper j - X j := le_of (by show (0 : ℚ) ≤ (upper j).1 - (X j).1; linarith)
  have hd1 : upper j - X j ≤ V j := of_le (by linarith)
  refine ⟨hv, RoundedOps.div_nonneg hd0 hv, RoundedOps.div_le_one hd1 hv, ?_⟩
  have hq := rd_le_rel (x := (upper j - X j).1 / (V j).1) (div_nonneg hd0 hv.le)
  have hd := rd_le_rel (x := (upper j).1 - (X j).1) (by linarith)
  rw [← sub_val] at hd
  rw [← div_val] at hq
  have := mul_le_mul_of_nonneg_left hq hv.le
  rw [← mul_assoc, mul_div_cancel₀ _ hv.ne'] at this
  refine this.trans ?_
  have := mul_le_mul_of_nonneg_right hd (by positivity : (0 : ℚ) ≤ 1 + 2 ^ (-53 : ℤ))
  refine this.trans (le_of_eq ?_)
  ring

theorem ratio_low (hX : InBox lower upper X) {j : Fin n} (h : X j + V j < lower j) :
    (V j).1 < 0 ∧ 0 ≤ (lower j - X j) / V j ∧ (lower j - X j) / V j ≤ 1 ∧
      ((lower j).1 - (X j).1) * (1 + 2 ^ (-53 : ℤ)) ^ 2 ≤ (V j).1 * ((lower j - X j) / V j).1 := by
  have h1 : (X j).1 + (V j).1 < (lower j).1 := of_lt h
  have h2 : (lower j).1 ≤ (X j).1 := (hX j).1
  have hv : (V j).1 < 0 := by linarith
  have hd0 : (lower j - X j).1 ≤ 0 := of_le (a := 0) (by show (lower j).1 - (X j).1 ≤ 0; linarith)
  have hd1 : (V j).1 ≤ (lower j - X j).1 := le_of (a := V j) (by linarith)
  have hq0 : 0 ≤ (lower j - X j).1 / (V j).1 := div_nonneg_of_nonpos hd0 hv.le
  refine ⟨hv, le_of hq0, of_le (by rw [one_val]; rw [div_le_one_of_neg hv]; exact hd1), ?_⟩
  have hq := rd_le_rel hq0
  have hd := rel_le_rd (x := (lower j).1 - (X j).1) (by linarith)
  rw [← sub_val] at hd
  rw [← div_val] at hq
  have := mul_le_mul_of_nonpos_left hq hv.le
  rw [← mul_assoc, mul_div_cancel₀ _ hv.ne] at this
  refine le_trans ?_ this
  have := mul_le_mul_of_nonneg_right hd (by positivity : (0 : ℚ) ≤ 1 + 2 ^ (-53 : ℤ))
  refine le_trans (le_of_eq ?_) this
  ring

/-- In floating point arithmetic the scale is in `[0, 1]` if the particle is feasible. -/
theorem shrinkBeta_unit (hX : InBox lower upper X) : 0 ≤ shrinkBeta lower upper X V ∧ shrinkBeta lower upper X V ≤ 1 := by
  rcases scale_shrinkBeta lower upper X V with ⟨_, h⟩ | ⟨_, ⟨j, h⟩, _⟩
  · rw [h]; exact ⟨RoundedOps.zero_le_one, le_rfl⟩
  · rcases h with ⟨h, e⟩ | ⟨h, e⟩
    · rw [e]; exact ⟨(ratio_low hX h).2.1, (ratio_low hX h).2.2.1⟩
    · rw [e]; exact ⟨(ratio_up hX h).2.1, (ratio_up hX h).2.2.1⟩

theorem shrinkBeta_le_up {j : Fin n} (h : upper j < X j + V j) : shrinkBeta lower upper X V ≤ (upper j - X j) / V j := by
  rcases scale_shrinkBeta lower upper X V with ⟨hin, _⟩ | ⟨_, _, hle⟩
  · exact absurd h (not_lt.2 (hin j).2)
  · exact hle ⟨j, Or.inr ⟨h, rfl⟩⟩

theorem shrinkBeta_le_low {j : Fin n} (h : X j + V j < lower j) : shrinkBeta lower upper X V ≤ (lower j - X j) / V j := by
  rcases scale_shrinkBeta lower upper X V with ⟨hin, _⟩ | ⟨_, _, hle⟩
  · exact absurd h (not_lt.2 (hin j).1)
  · exact hle ⟨j, Or.inl ⟨h, rfl⟩⟩

theorem cube_le : (1 + 2 ^ (-53 : ℤ) : ℚ) ^ 3 ≤ 1 + 2 ^ (-51 : ℤ) := by norm_num

/-- A shrunk move of a feasible particle overshoots the upper bound by at most the fraction `2 ^ (-51)` of the distance to it. -/
theorem shrunk_le (hX : InBox lower upper X) (j : Fin n) :
    X j + V j * shrinkBeta lower upper X V ≤ F64.of ((upper j).1 + ((upper j).1 - (X j).1) * 2 ^ (-51 : ℤ)) := by
  obtain ⟨b0, b1⟩ := shrinkBeta_unit (V := V) hX
  set b := shrinkBeta lower upper X V with hb
  have hx : (X j).1 ≤ (upper j).1 := (hX j).2
  have b0' : 0 ≤ b.1 := b0
  have b1' : b.1 ≤ 1 := by have : b.1 ≤ (1 : F64).1 := b1; rwa [one_val] at this
  have hslack : 0 ≤ ((upper j).1 - (X j).1) * 2 ^ (-51 : ℤ) := mul_nonneg (by linarith) (by positivity)
  have htop : upper j ≤ F64.of ((upper j).1 + ((upper j).1 - (X j).1) * 2 ^ (-51 : ℤ)) := le_of (by linarith)
  by_cases hc : upper j < X j + V j
  · obtain ⟨hv, _, _, hr⟩ := ratio_up hX hc
    have hle : b.1 ≤ ((upper j - X j) / V j).1 := shrinkBeta_le_up hc
    refine of_mono ?_
    have h1 := (mul_le_mul_of_nonneg_left hle hv.le).trans hr
    have h2 := rd_le_rel (x := (V j).1 * b.1) (mul_nonneg hv.le b0')
    have h3 := mul_le_mul_of_nonneg_right h1 (by positivity : (0 : ℚ) ≤ 1 + 2 ^ (-53 : ℤ))
    have h4 := mul_le_mul_of_nonneg_left cube_le (by linarith : 0 ≤ (upper j).1 - (X j).1)
    have h5 : ((upper j).1 - (X j).1) * (1 + 2 ^ (-53 : ℤ)) ^ 2 * (1 + 2 ^ (-53 : ℤ)) =
      ((upper j).1 - (X j).1) * (1 + 2 ^ (-53 : ℤ)) ^ 3 := by ring
    rw [h5] at h3
    rw [mul_val]
    linarith
  · refine le_trans ?_ htop
    rcases le_or_gt 0 (V j).1 with hv | hv
    · refine le_trans (RoundedOps.add_le_add le_rfl ?_) (not_lt.1 hc)
      refine of_le ?_
      have := mul_le_mul_of_nonneg_left b1' hv
      linarith
    · refine of_le ?_
      have : (V j * b).1 ≤ 0 := of_le (a := 0) (mul_nonpos_of_nonpos_of_nonneg hv.le b0')
      linarith

/-- The same for the lower bound. -/
theorem le_shrunk (hX : InBox lower upper X) (j : Fin n) :
    F64.of ((lower j).1 - ((X j).1 - (lower j).1) * 2 ^ (-51 : ℤ)) ≤ X j + V j * shrinkBeta lower upper X V := by
  obtain ⟨b0, b1⟩ := shrinkBeta_unit (V := V) hX
  set b := shrinkBeta lower upper X V with hb
  have hx : (lower j).1 ≤ (X j).1 := (hX j).1
  have b0' : 0 ≤ b.1 := b0
  have b1' : b.1 ≤ 1 := by have : b.1 ≤ (1 : F64).1 := b1; rwa [one_val] at this
  have hslack : 0 ≤ ((X j).1 - (lower j).1) * 2 ^ (-51 : ℤ) := mul_nonneg (by linarith) (by positivity)
  have htop : F64.of ((lower j).1 - ((X j).1 - (lower j).1) * 2 ^ (-51 : ℤ)) ≤ lower j := of_le (by linarith)
  by_cases hc : X j + V j < lower j
  · obtain ⟨hv, _, _, hr⟩ := ratio_low hX hc
    have hle : b.1 ≤ ((lower j - X j) / V j).1 := shrinkBeta_le_low hc
    refine of_mono ?_
    have h1 := hr.trans (mul_le_mul_of_nonpos_left hle hv.le)
    have h2 := rel_le_rd (x := (V j).1 * b.1) (mul_nonpos_of_nonpos_of_nonneg hv.le b0')
    have h3 := mul_le_mul_of_nonneg_right h1 (by positivity : (0 : ℚ) ≤ 1 + 2 ^ (-53 : ℤ))
    have h4 := mul_le_mul_of_nonneg_left cube_le (by linarith : 0 ≤ (X j).1 - (lower j).1)
    have h5 : ((lower j).1 - (X j).1) * (1 + 2 ^ (-53 : ℤ)) ^ 2 * (1 + 2 ^ (-53 : ℤ)) =
      - (((X j).1 - (lower j).1) * (1 + 2 ^ (-53 : ℤ)) ^ 3) := by ring
    rw [h5] at h3
    rw [mul_val]
    linarith
  · refine le_trans htop ?_
    rcases le_or_gt (V j).1 0 with hv | hv
    · refine le_trans (not_lt.1 hc) (RoundedOps.add_le_add le_rfl ?_)
      refine le_of ?_
      have := mul_le_mul_of_nonpos_left b1' hv
      linarith
    · refine le_of ?_
      have : 0 ≤ (V j * b).1 := le_of (a := 0) (mul_nonneg hv.le b0')
      linarith

end CPSO

section
open F64
variable {σ : Type} {p n : Nat} {R : Rng σ F64}

theorem F64.natCast_val {m : Nat} (h : m ≤ 2 ^ 53) : ((m : F64)).1 = m := by
  have := rd_form (m := (m : ℤ)) (e := 0) (by rw [abs_of_nonneg (by omega)]; exact_mod_cast h)
  rw [zpow_zero, mul_one] at this
  show rd ((m : ℕ) : ℚ) = m
  exact_mod_cast this

/-- `neg` is exact. -/
theorem F64.neg_val (a : F64) : (-a).1 = -a.1 := by
  show rd (-a.1) = -a.1
  rw [rd_neg, a.2]

theorem F64.two_val : (2 : F64).1 = 2 := F64.natCast_val (m := 2) (by norm_num)

/-- The coordinates of the Latin hypercube before scaling are in `[-1, 1]`. -/
theorem lhs_unit {u : F64} (hu0 : 0 ≤ u) (hu1 : u < 1) {k : Nat} (hk : k < p) (hp : p ≤ 2 ^ 50) :
    -1 ≤ u / (p : F64) + ((k : F64) * (2 / (p : F64)) + -1) ∧ u / (p : F64) + ((k : F64) * (2 / (p : F64)) + -1) ≤ 1 := by
  have hp0 : 0 < p := by omega
  have hpv : ((p : F64)).1 = p := natCast_val (hp.trans (by norm_num))
  have hkv : ((k : F64)).1 = k := natCast_val (by omega)
  have hpq : (0 : ℚ) < p := by exact_mod_cast hp0
  have hp1 : (1 : ℚ) ≤ p := by exact_mod_cast hp0
  have hu0' : 0 ≤ u.1 := hu0
  have hu1' : u.1 < 1 := by rw [← one_val]; exact hu1
  have hkq : (k : ℚ) + 1 ≤ p := by exact_mod_cast hk
  have hk0 : (0 : ℚ) ≤ k := Nat.cast_nonneg k
  have hm1 : ((-1 : F64)).1 = -1 := by rw [neg_val, one_val]
  set e : ℚ := 2 ^ (-53 : ℤ) with he
  have he0 : 0 < e := by positivity
  have hes : e ≤ 1 / 1000 := by rw [he]; norm_num
  -- the step
  have s0 : 0 ≤ (2 / (p : F64)).1 := le_of (a := 0) (by rw [zero_val, two_val, hpv]; positivity)
  have s1 : (2 / (p : F64)).1 ≤ 2 / p * (1 + e) := by
    have := rd_le_rel (x := (2 : F64).1 / ((p : F64)).1) (by rw [two_val, hpv]; positivity)
    rw [← div_val, two_val, hpv] at this
    exact this
  -- the position of the slice
  have t0 : 0 ≤ ((k : F64) * (2 / (p : F64))).1 := le_of (a := 0) (by rw [zero_val, hkv]; positivity)
  have t1 : ((k : F64) * (2 / (p : F64))).1 ≤ k * (2 / p * (1 + e)) * (1 + e) := by
    have h1 := rd_le_rel (x := ((k : F64)).1 * (2 / (p : F64)).1) (by rw [hkv]; positivity)
    rw [← mul_val, hkv] at h1
    refine h1.trans ?_
    exact mul_le_mul_of_nonneg_right (mul_le_mul_of_nonneg_left s1 hk0) (by positivity)
  have j0 : 0 ≤ (u / (p : F64)).1 := le_of (a := 0) (by rw [zero_val, hpv]; positivity)
  have j1 : (u / (p : F64)).1 ≤ 1 / p * (1 + e) := by
    have h1 := rd_le_rel (x := u.1 / ((p : F64)).1) (by rw [hpv]; positivity)
    rw [← div_val, hpv] at h1
    refine h1.trans (mul_le_mul_of_nonneg_right ?_ (by positivity))
    exact div_le_div_of_nonneg_right hu1'.le hpq.le
  have l0 : -1 ≤ ((k : F64) * (2 / (p : F64)) + -1).1 := by
    have : (-1 : F64) ≤ (k : F64) * (2 / (p : F64)) + -1 := le_of (by rw [hm1]; linarith)
    have := le_iff.1 this
    rwa [hm1] at this
  refine ⟨le_of (by rw [hm1]; linarith), of_le ?_⟩
  rw [one_val]
  -- k * 2 / p ≤ 2 - 2 / p
  have hkp : (k : ℚ) * (2 / p) ≤ 2 - 2 / p := by
    have : (k : ℚ) * (2 / p) ≤ (p - 1) * (2 / p) := mul_le_mul_of_nonneg_right (by linarith) (by positivity)
    refine this.trans (le_of_eq ?_)
    field_simp
  have hip : 1 / (p : ℚ) ≤ 1 := by rw [div_le_one hpq]; exact hp1
  have hip0 : 0 ≤ 1 / (p : ℚ) := by positivity
  have h2p : 2 / (p : ℚ) = 2 * (1 / p) := by ring
  have t2 : ((k : F64) * (2 / (p : F64))).1 ≤ 2 - 2 / p + 5 * e := by
    refine t1.trans ?_
    have h1 : (k : ℚ) * (2 / p * (1 + e)) * (1 + e) = k * (2 / p) * (1 + (2 * e + e * e)) := by ring
    rw [h1]
    have h2 : 2 * e + e * e ≤ 5 / 2 * e := by
      have := mul_le_mul_of_nonneg_left hes he0.le; linarith
    have h3 : (k : ℚ) * (2 / p) ≤ 2 := by linarith
    have h4 : (0 : ℚ) ≤ k * (2 / p) := by positivity
    have h5 := mul_le_mul_of_nonneg_left h2 h4
    have h6 := mul_le_mul_of_nonneg_right h3 (by linarith : 0 ≤ 5 / 2 * e)
    linarith
  -- subtracting one
  have m1 : ((k : F64) * (2 / (p : F64)) + -1).1 ≤ 1 - 2 / p + 7 * e := by
    have h1 := (abs_le.1 (rd_rel (((k : F64) * (2 / (p : F64))).1 + (-1 : F64).1))).2
    rw [← add_val, hm1] at h1
    have h2 : |((k : F64) * (2 / (p : F64))).1 + -1| ≤ 2 := abs_le.2 ⟨by linarith, by linarith⟩
    have h3 := mul_le_mul_of_nonneg_left h2 he0.le
    linarith
  have hgap : 8 * e ≤ 1 / p := by
    rw [le_div_iff₀ hpq]
    have : (p : ℚ) ≤ 2 ^ 50 := by exact_mod_cast hp
    have := mul_le_mul_of_nonneg_left this (by linarith : 0 ≤ 8 * e)
    refine this.trans ?_
    rw [he]; norm_num
  have : 1 / (p : ℚ) * (1 + e) ≤ 1 / p + e := by
    have := mul_le_mul_of_nonneg_right hip he0.le; linarith
  linarith

/-- Halving is exact. -/
theorem _root_.Stochopy.rd_half (x : ℚ) : rd (x / 2) = rd x / 2 := by
  have key : ∀ x : ℚ, 0 < x → rd (x / 2) = rd x / 2 := by
    intro x h
    have h2 : lg (x / 2) = lg x - 1 := by
      obtain ⟨a, b⟩ := lg_spec h
      refine lg_eq ?_ ?_
      · rw [zpow_sub_one₀ (by norm_num)]; linarith
      · have : (2 : ℚ) ^ (lg x - 1 + 1) = 2 ^ (lg x + 1) / 2 := by
          rw [show lg x - 1 + 1 = (lg x + 1) - 1 by ring, zpow_sub_one₀ (by norm_num)]; ring
        rw [this]; linarith
    have h3 : pow2 (lg x - 1 - 52) = pow2 (lg x - 52) / 2 := by
      rw [pow2_eq, pow2_eq, show lg x - 1 - 52 = (lg x - 52) - 1 by ring, zpow_sub_one₀ (by norm_num)]; ring
    rw [rd_of_pos (by linarith : 0 < x / 2), rd_of_pos h, h2, h3]
    have h4 : x / 2 / (pow2 (lg x - 52) / 2) = x / pow2 (lg x - 52) := by
      have := pow2_pos (lg x - 52)
      field_simp
    rw [h4]; ring
  rcases lt_trichotomy x 0 with h | h | h
  · have := key (-x) (by linarith)
    rw [rd_neg, show -x / 2 = -(x / 2) by ring, rd_neg] at this
    linarith
  · subst h; simp
  · exact key x h

theorem half_val : ((1 : F64) / 2).1 = 1 / 2 := by
  have := rd_form (m := 1) (e := -1) (by norm_num)
  rw [div_val, one_val, two_val]
  norm_num at this ⊢
  exact this

theorem half_mul_val (a : F64) : (1 / 2 * a).1 = a.1 / 2 := by
  rw [mul_val, half_val, show (1 : ℚ) / 2 * a.1 = a.1 / 2 by ring, rd_half, a.rep]

/-- The images of `-1` and `1` differ from the bounds by a rounding error. -/
theorem lhsScale_ends {l u : F64} :
    of (l.1 - max |l.1| |u.1| * 2 ^ (-53 : ℤ)) ≤ lhsScale l u (-1) ∧
      lhsScale l u 1 ≤ of (u.1 + max |l.1| |u.1| * 2 ^ (-53 : ℤ)) := by
  obtain ⟨a1, b1⟩ := abs_le.1 (rd_rel (u.1 - l.1))
  obtain ⟨a2, b2⟩ := abs_le.1 (rd_rel (u.1 + l.1))
  have hm : |u.1 - l.1| + |u.1 + l.1| = 2 * max |l.1| |u.1| := by
    rcases abs_cases (u.1 - l.1) with h1 | h1 <;> rcases abs_cases (u.1 + l.1) with h2 | h2 <;>
      rcases abs_cases l.1 with h3 | h3 <;> rcases abs_cases u.1 with h4 | h4 <;>
      rcases max_cases |l.1| |u.1| with h5 | h5 <;> linarith
  have hs : 2 ^ (-53 : ℤ) * |u.1 - l.1| + 2 ^ (-53 : ℤ) * |u.1 + l.1| = 2 * (max |l.1| |u.1| * 2 ^ (-53 : ℤ)) := by
    rw [← mul_add, hm]; ring
  have e1 : ((1 : F64) * (1 / 2 * (u - l))).1 = rd (u.1 - l.1) / 2 := by
    rw [mul_val, one_val, one_mul, F64.rep, half_mul_val, sub_val]
  have e2 : ((-1 : F64) * (1 / 2 * (u - l))).1 = -(rd (u.1 - l.1) / 2) := by
    rw [mul_val, neg_val, one_val, neg_one_mul, rd_neg, F64.rep, half_mul_val, sub_val]
  unfold lhsScale
  constructor
  · refine of_mono ?_
    rw [e2, half_mul_val, add_val]
    clear e1 e2
    generalize (2 : ℚ) ^ (-53 : ℤ) = e at *
    linarith
  · refine of_mono ?_
    rw [e1, half_mul_val, add_val]
    clear e1 e2
    generalize (2 : ℚ) ^ (-53 : ℤ) = e at *
    linarith

theorem lhsScale_mono {l u x y : F64} (h : l ≤ u) (hxy : x ≤ y) : lhsScale l u x ≤ lhsScale l u y := by
  unfold lhsScale
  have hd : (0 : F64) ≤ u - l := le_of (by show (0 : ℚ) ≤ u.1 - l.1; have : l.1 ≤ u.1 := h; linarith)
  have hs : (0 : F64) ≤ 1 / 2 * (u - l) := RoundedOps.mul_nonneg (by rw [le_iff, half_val, zero_val]; norm_num) hd
  exact RoundedOps.add_le_add (of_mono (mul_le_mul_of_nonneg_right hxy hs)) le_rfl

/-- In floating point arithmetic the points of a Latin hypercube are between the images of `-1` and `1`. -/
theorem lhs_between (hR : R.Ok) {lower upper : Vec F64 n} (hb : ∀ j, lower j ≤ upper j) (hp : p ≤ 2 ^ 50) (g : σ) (k : Fin p) :
    InBox (fun j => lhsScale (lower j) (upper j) (-1)) (fun j => lhsScale (lower j) (upper j) 1)
      ((lhs R p lower upper g).1 k) := by
  intro j
  obtain ⟨g', hg⟩ := drawMat_mem R.rand p n g ((drawVec (R.perm p) n (drawMat R.rand p n g).2).1 j k) j
  simp only [lhs]
  rw [hg]
  have := lhs_unit (hR.rand_nonneg g') (hR.rand_lt_one g')
    ((drawVec (R.perm p) n (drawMat R.rand p n g).2).1 j k).isLt hp
  exact ⟨lhsScale_mono (hb j) this.1, lhsScale_mono (hb j) this.2⟩

end

end Stochopy

namespace Stochopy.CPSO
open F64

/-- With floating point numbers there are few restarts, if the exponential is not negative and the number of particles is
represented exactly. -/
theorem fewRestarts_double [NumFns F64] (hexp : ∀ x : F64, 0 ≤ NumFns.exp x) {p : Nat} (hp : p ≤ 2 ^ 53) : FewRestarts F64 p where
  le x := by
    have hd1 : (1 : F64) ≤ 1 + NumFns.exp x := by
      have := RoundedOps.add_le_add (le_refl (1 : F64)) (hexp x)
      rwa [add_zero] at this
    have hd1' : (1 : ℚ) ≤ (1 + NumFns.exp x : F64).1 := by
      have := le_iff.1 hd1
      rwa [one_val] at this
    unfold pyInt
    split_ifs with h
    · rcases Nat.eq_zero_or_pos p with rfl | hp0
      · exfalso
        have h1 : ((((0 : Nat) : F64)) - 1).1 = -1 := by
          rw [sub_val, one_val, natCast_val (by norm_num)]
          have := rd_form (m := -1) (e := 0) (by norm_num)
          norm_num at this ⊢
          exact this
        have h2 : (0 : ℚ) ≤ (((((0 : Nat) : F64)) - 1) / (1 + NumFns.exp x)).1 := h
        have h3 : (((((0 : Nat) : F64)) - 1) / (1 + NumFns.exp x)).1 < 0 := by
          rw [div_val, h1]
          have h4 : (-1 : ℚ) / (1 + NumFns.exp x : F64).1 < 0 := div_neg_of_neg_of_pos (by norm_num) (by linarith)
          have h5 := (abs_le.1 (rd_rel ((-1 : ℚ) / (1 + NumFns.exp x : F64).1))).2
          rw [abs_of_neg h4] at h5
          have h6 : (2 : ℚ) ^ (-53 : ℤ) < 1 := by norm_num
          have := mul_lt_mul_of_pos_right h6 (by linarith : 0 < -((-1 : ℚ) / (1 + NumFns.exp x : F64).1))
          linarith
        linarith
      · have h1 : ((p : F64) - 1).1 = ((p - 1 : Nat) : ℚ) := by
          rw [sub_val, one_val, natCast_val hp]
          have := natCast_val (m := p - 1) (by omega)
          have e : ((p - 1 : Nat) : ℚ) = (p : ℚ) - 1 := by rw [Nat.cast_sub hp0]; norm_num
          rw [← e]
          exact this
        have h2 : (((p : F64) - 1) / (1 + NumFns.exp x)).1 ≤ ((p - 1 : Nat) : ℚ) := by
          rw [← h1]
          refine of_le (a := (p : F64) - 1) ?_
          exact div_le_self (by rw [h1]; positivity) hd1'
        show (⌊(((p : F64) - 1) / (1 + NumFns.exp x)).1⌋).toNat ≤ p - 1
        have h3 : (⌊(((p : F64) - 1) / (1 + NumFns.exp x)).1⌋ : ℚ) ≤ ((p - 1 : Nat) : ℚ) := (Int.floor_le _).trans h2
        have h4 : ⌊(((p : F64) - 1) / (1 + NumFns.exp x)).1⌋ ≤ ((p - 1 : Nat) : ℤ) := by exact_mod_cast h3
        omega
    · have h1 : (((p : F64) - 1) / (1 + NumFns.exp x)).1 ≤ 0 := (not_le.1 h).le
      show (⌈(((p : F64) - 1) / (1 + NumFns.exp x)).1⌉).toNat ≤ p - 1
      have : ⌈(((p : F64) - 1) / (1 + NumFns.exp x)).1⌉ ≤ 0 := Int.ceil_le.2 (by simpa using h1)
      omega

end Stochopy.CPSO

namespace Stochopy.Spec
open F64

/-- The rounded `(upper - lower) + lower` is close to `upper`. -/
theorem naTop_le {n : Nat} {lower upper : Vec F64 n} {j : Fin n} (hb : lower j ≤ upper j) :
    naTop lower upper j ≤ F64.of ((upper j).1 + ((upper j).1 - (lower j).1) * 2 ^ (-53 : ℤ)) := by
  have hb' : (lower j).1 ≤ (upper j).1 := hb
  unfold naTop
  split_ifs
  · refine of_mono ?_
    have := rd_le_rel (x := (upper j).1 - (lower j).1) (by linarith)
    rw [sub_val]
    linarith
  · refine le_of ?_
    have : 0 ≤ ((upper j).1 - (lower j).1) * 2 ^ (-53 : ℤ) := mul_nonneg (by linarith) (by positivity)
    linarith

end Stochopy.Spec
