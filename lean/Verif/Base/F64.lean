import Mathlib.Algebra.Order.Floor.Ring
import Mathlib.Data.Rat.Floor
import Mathlib.Algebra.Order.Field.Power
import Mathlib.Tactic.Linarith
import Mathlib.Tactic.Ring
import Mathlib.Tactic.FieldSimp
import Mathlib.Tactic.Positivity
import Mathlib.Tactic.NormNum
import Verif.Base.Num

/-!
# Floating point arithmetic

Binary floating point numbers with 53 significant bits, rounding to nearest with ties to even, as rational numbers.  This is
IEEE 754 binary64 without bounds on the exponent: there is no overflow and no underflow, and the two zeros are identified.
-/

set_option linter.unusedSectionVars false

namespace Stochopy

/-- Rounding to the nearest integer, ties to even. -/
def roundZ (x : ℚ) : ℤ :=
  if x - ⌊x⌋ < 1 / 2 then ⌊x⌋ else if 1 / 2 < x - ⌊x⌋ then ⌊x⌋ + 1 else if ⌊x⌋ % 2 = 0 then ⌊x⌋ else ⌊x⌋ + 1

/-- `2 ^ e`, computed by shifting. -/
def pow2 (e : ℤ) : ℚ := if 0 ≤ e then ((2 ^ e.toNat : ℕ) : ℚ) else 1 / ((2 ^ (-e).toNat : ℕ) : ℚ)

/-- The exponent of a positive number: `2 ^ lg x ≤ x < 2 ^ (lg x + 1)`. -/
def lg (x : ℚ) : ℤ :=
  let e : ℤ := (Nat.log2 x.num.natAbs : ℤ) - (Nat.log2 x.den : ℤ)
  if pow2 e ≤ x then e else e - 1

/-- The nearest floating point number. -/
def rd (x : ℚ) : ℚ :=
  if x = 0 then 0 else (roundZ (x / pow2 (lg |x| - 52)) : ℚ) * pow2 (lg |x| - 52)

theorem pow2_eq (e : ℤ) : pow2 e = (2 : ℚ) ^ e := by
  unfold pow2
  split_ifs with h
  · push_cast
    rw [← zpow_natCast, Int.toNat_of_nonneg h]
  · push_cast
    rw [← zpow_natCast, Int.toNat_of_nonneg (by omega), zpow_neg, one_div, inv_inv]

theorem pow2_pos (e : ℤ) : 0 < pow2 e := by rw [pow2_eq]; positivity

theorem roundZ_int (m : ℤ) : roundZ (m : ℚ) = m := by
  unfold roundZ
  rw [Int.floor_intCast, if_pos (by norm_num)]

theorem roundZ_cases (x : ℚ) : (roundZ x = ⌊x⌋ ∧ x - ⌊x⌋ ≤ 1 / 2) ∨ (roundZ x = ⌊x⌋ + 1 ∧ 1 / 2 ≤ x - ⌊x⌋) := by
  unfold roundZ
  split_ifs with h1 h2 h3
  · exact Or.inl ⟨rfl, h1.le⟩
  · exact Or.inr ⟨rfl, h2.le⟩
  · exact Or.inl ⟨rfl, not_lt.1 h2⟩
  · exact Or.inr ⟨rfl, not_lt.1 h1⟩

/-- The result is at most one half away. -/
theorem roundZ_near (x : ℚ) : |(roundZ x : ℚ) - x| ≤ 1 / 2 := by
  have h1 := Int.floor_le x
  have h2 := Int.lt_floor_add_one x
  rw [abs_le]
  rcases roundZ_cases x with ⟨e, h⟩ | ⟨e, h⟩ <;> rw [e] <;> push_cast <;> constructor <;> linarith

theorem roundZ_mono {x y : ℚ} (h : x ≤ y) : roundZ x ≤ roundZ y := by
  rcases (Int.floor_mono h).lt_or_eq with hl | he
  · have h1 : roundZ x ≤ ⌊x⌋ + 1 := by rcases roundZ_cases x with ⟨e, -⟩ | ⟨e, -⟩ <;> omega
    have h2 : ⌊y⌋ ≤ roundZ y := by rcases roundZ_cases y with ⟨e, -⟩ | ⟨e, -⟩ <;> omega
    omega
  · have hxy : x - ⌊x⌋ ≤ y - ⌊x⌋ := by linarith
    unfold roundZ
    rw [← he]
    split_ifs <;> first | omega | (exfalso; linarith)

theorem roundZ_neg (x : ℚ) : roundZ (-x) = -roundZ x := by
  have h1 := Int.floor_le x
  have h2 := Int.lt_floor_add_one x
  rcases h1.lt_or_eq with hl | he
  · have hf : ⌊-x⌋ = -⌊x⌋ - 1 := by
      rw [Int.floor_eq_iff]; push_cast; constructor <;> linarith
    unfold roundZ
    rw [hf]
    push_cast
    split_ifs <;> first | omega | (exfalso; linarith)
  · rw [← he, ← Int.cast_neg, roundZ_int, roundZ_int]

theorem lg_spec {x : ℚ} (h : 0 < x) : (2 : ℚ) ^ lg x ≤ x ∧ x < (2 : ℚ) ^ (lg x + 1) := by
  have hn : x.num.natAbs ≠ 0 := by
    have := Rat.num_pos.2 h
    omega
  have hd : x.den ≠ 0 := x.den_nz
  have hx : x = (x.num.natAbs : ℚ) / (x.den : ℚ) := by
    have h1 : (x.num.natAbs : ℚ) = (x.num : ℚ) := by
      rw [← Int.cast_natCast, Int.natAbs_of_nonneg (Rat.num_pos.2 h).le]
    rw [h1]
    exact (Rat.num_div_den x).symm
  have a1 : (2 : ℚ) ^ (Nat.log2 x.num.natAbs : ℤ) ≤ (x.num.natAbs : ℚ) := by
    rw [zpow_natCast]; exact_mod_cast Nat.log2_self_le hn
  have a2 : (x.num.natAbs : ℚ) < (2 : ℚ) ^ ((Nat.log2 x.num.natAbs : ℤ) + 1) := by
    have : x.num.natAbs < 2 ^ (Nat.log2 x.num.natAbs + 1) := Nat.lt_log2_self
    rw [← Nat.cast_succ, zpow_natCast]; exact_mod_cast this
  have b1 : (2 : ℚ) ^ (Nat.log2 x.den : ℤ) ≤ (x.den : ℚ) := by
    rw [zpow_natCast]; exact_mod_cast Nat.log2_self_le hd
  have b2 : (x.den : ℚ) < (2 : ℚ) ^ ((Nat.log2 x.den : ℤ) + 1) := by
    have : x.den < 2 ^ (Nat.log2 x.den + 1) := Nat.lt_log2_self
    rw [← Nat.cast_succ, zpow_natCast]; exact_mod_cast this
  set A := (Nat.log2 x.num.natAbs : ℤ)
  set B := (Nat.log2 x.den : ℤ)
  have hdp : (0 : ℚ) < (x.den : ℚ) := by exact_mod_cast Nat.pos_of_ne_zero hd
  have hup : x < (2 : ℚ) ^ (A - B + 1) := by
    rw [hx, div_lt_iff₀ hdp]
    calc (x.num.natAbs : ℚ) < (2 : ℚ) ^ (A + 1) := a2
      _ = (2 : ℚ) ^ (A - B + 1) * (2 : ℚ) ^ B := by rw [← zpow_add₀ (by norm_num)]; congr 1; ring
      _ ≤ _ := mul_le_mul_of_nonneg_left b1 (by positivity)
  have hlo : (2 : ℚ) ^ (A - B - 1) < x := by
    rw [hx, lt_div_iff₀ hdp]
    calc (2 : ℚ) ^ (A - B - 1) * (x.den : ℚ) < (2 : ℚ) ^ (A - B - 1) * (2 : ℚ) ^ (B + 1) := mul_lt_mul_of_pos_left b2 (by positivity)
      _ = (2 : ℚ) ^ A := by rw [← zpow_add₀ (by norm_num)]; congr 1; ring
      _ ≤ _ := a1
  unfold lg
  dsimp only
  rw [pow2_eq]
  split_ifs with hc
  · exact ⟨hc, hup⟩
  · exact ⟨hlo.le, by rw [sub_add_cancel]; exact not_le.1 hc⟩

theorem lg_eq {x : ℚ} {e : ℤ} (h1 : (2 : ℚ) ^ e ≤ x) (h2 : x < (2 : ℚ) ^ (e + 1)) : lg x = e := by
  have h0 : 0 < x := lt_of_lt_of_le (by positivity) h1
  obtain ⟨a, b⟩ := lg_spec h0
  have c1 := (zpow_lt_zpow_iff_right₀ (by norm_num : (1 : ℚ) < 2)).1 (lt_of_le_of_lt a h2)
  have c2 := (zpow_lt_zpow_iff_right₀ (by norm_num : (1 : ℚ) < 2)).1 (lt_of_le_of_lt h1 b)
  omega

theorem lg_mono {x y : ℚ} (h : 0 < x) (hxy : x ≤ y) : lg x ≤ lg y := by
  obtain ⟨a, -⟩ := lg_spec h
  obtain ⟨-, b⟩ := lg_spec (lt_of_lt_of_le h hxy)
  have := (zpow_lt_zpow_iff_right₀ (by norm_num : (1 : ℚ) < 2)).1 (lt_of_le_of_lt (a.trans hxy) b)
  omega

@[simp] theorem rd_zero : rd 0 = 0 := if_pos rfl

theorem rd_neg (x : ℚ) : rd (-x) = -rd x := by
  unfold rd
  by_cases h : x = 0
  · simp [h]
  · rw [if_neg h, if_neg (neg_ne_zero.2 h), abs_neg, neg_div, roundZ_neg]
    push_cast; ring

theorem rd_of_pos {x : ℚ} (h : 0 < x) : rd x = (roundZ (x / pow2 (lg x - 52)) : ℚ) * pow2 (lg x - 52) := by
  unfold rd
  rw [if_neg h.ne', abs_of_pos h]

/-- Numbers of the form `m * 2 ^ e` with `|m| ≤ 2 ^ 53` are floating point numbers. -/
theorem rd_form {m e : ℤ} (h : |m| ≤ 2 ^ 53) : rd ((m : ℚ) * 2 ^ e) = (m : ℚ) * 2 ^ e := by
  wlog hm : 0 ≤ m with H
  · have := H (m := -m) (e := e) (by rwa [abs_neg]) (by omega)
    push_cast at this
    rw [neg_mul, rd_neg] at this
    exact neg_injective this
  rw [abs_of_nonneg hm] at h
  rcases hm.eq_or_lt with rfl | hm
  · simp
  have hm' : (0 : ℚ) < (m : ℚ) := by exact_mod_cast hm
  have hx : (0 : ℚ) < (m : ℚ) * 2 ^ e := by positivity
  rw [rd_of_pos hx]
  have hpos := pow2_pos (lg ((m : ℚ) * 2 ^ e) - 52)
  obtain ⟨k, hk⟩ : ∃ k : ℤ, ((m : ℚ) * 2 ^ e) / pow2 (lg ((m : ℚ) * 2 ^ e) - 52) = k := by
    rcases h.lt_or_eq with h | h
    · obtain ⟨a, b⟩ := lg_spec hm'
      have hl : lg ((m : ℚ) * 2 ^ e) = lg (m : ℚ) + e := lg_eq
        (by rw [zpow_add₀ (by norm_num)]; exact mul_le_mul_of_nonneg_right a (by positivity))
        (by rw [show lg (m : ℚ) + e + 1 = (lg (m : ℚ) + 1) + e by ring, zpow_add₀ (by norm_num : (2 : ℚ) ≠ 0)]
            exact mul_lt_mul_of_pos_right b (by positivity))
      have hle : lg (m : ℚ) ≤ 52 := by
        have h1 : (m : ℚ) < (2 : ℚ) ^ (53 : ℤ) := by exact_mod_cast h
        have := (zpow_lt_zpow_iff_right₀ (by norm_num : (1 : ℚ) < 2)).1 (lt_of_le_of_lt a h1)
        omega
      refine ⟨m * 2 ^ (52 - lg (m : ℚ)).toNat, ?_⟩
      rw [hl, pow2_eq]
      push_cast
      rw [← zpow_natCast, Int.toNat_of_nonneg (by omega), mul_div_assoc, ← zpow_sub₀ (by norm_num)]
      congr 2; ring
    · subst h
      have e1 : (((2 : ℤ) ^ 53 : ℤ) : ℚ) * 2 ^ e = (2 : ℚ) ^ (e + 53) := by
        push_cast; rw [zpow_add₀ (by norm_num), mul_comm]; norm_num
      rw [e1, lg_eq (le_refl _) (zpow_lt_zpow_right₀ (by norm_num) (by omega)), pow2_eq, ← zpow_sub₀ (by norm_num)]
      refine ⟨2 ^ 52, ?_⟩
      rw [show e + 53 - (e + 53 - 52) = 52 by ring]
      norm_num
  rw [hk, roundZ_int, ← hk, div_mul_cancel₀ _ hpos.ne']

theorem scaled_bounds {x : ℚ} (h : 0 < x) : ((2 ^ 52 : ℤ) : ℚ) ≤ x / pow2 (lg x - 52) ∧ x / pow2 (lg x - 52) < ((2 ^ 53 : ℤ) : ℚ) := by
  obtain ⟨a, b⟩ := lg_spec h
  rw [pow2_eq, le_div_iff₀ (by positivity), div_lt_iff₀ (by positivity)]
  constructor
  · calc ((2 ^ 52 : ℤ) : ℚ) * 2 ^ (lg x - 52) = (2 : ℚ) ^ lg x := by
          push_cast; rw [zpow_sub₀ (by norm_num)]; norm_num; ring
      _ ≤ x := a
  · calc x < (2 : ℚ) ^ (lg x + 1) := b
      _ = ((2 ^ 53 : ℤ) : ℚ) * 2 ^ (lg x - 52) := by
        push_cast; rw [zpow_sub₀ (by norm_num), zpow_add₀ (by norm_num)]; norm_num; ring

/-- The rounded number lies in the same binade, or is the power of two above it. -/
theorem rd_bounds {x : ℚ} (h : 0 < x) : (2 : ℚ) ^ lg x ≤ rd x ∧ rd x ≤ (2 : ℚ) ^ (lg x + 1) := by
  obtain ⟨a, b⟩ := scaled_bounds h
  rw [rd_of_pos h]
  have c1 := roundZ_mono a
  have c2 := roundZ_mono b.le
  rw [roundZ_int] at c1 c2
  have hp := pow2_pos (lg x - 52)
  have c1' : ((2 ^ 52 : ℤ) : ℚ) ≤ (roundZ (x / pow2 (lg x - 52)) : ℚ) := by exact_mod_cast c1
  have c2' : (roundZ (x / pow2 (lg x - 52)) : ℚ) ≤ ((2 ^ 53 : ℤ) : ℚ) := by exact_mod_cast c2
  constructor
  · calc (2 : ℚ) ^ lg x = ((2 ^ 52 : ℤ) : ℚ) * pow2 (lg x - 52) := by
          push_cast; rw [pow2_eq, zpow_sub₀ (by norm_num)]; norm_num; ring
      _ ≤ _ := mul_le_mul_of_nonneg_right c1' hp.le
  · calc _ ≤ ((2 ^ 53 : ℤ) : ℚ) * pow2 (lg x - 52) := mul_le_mul_of_nonneg_right c2' hp.le
      _ = (2 : ℚ) ^ (lg x + 1) := by
          push_cast; rw [pow2_eq, zpow_sub₀ (by norm_num), zpow_add₀ (by norm_num)]; norm_num; ring

theorem rd_idem (x : ℚ) : rd (rd x) = rd x := by
  wlog h : 0 < x with H
  · rcases (not_lt.1 h).lt_or_eq with h | rfl
    · have := H (-x) (by linarith)
      rw [rd_neg, rd_neg] at this
      exact neg_injective this
    · simp
  have hb := scaled_bounds h
  have c1 := roundZ_mono hb.1
  have c2 := roundZ_mono hb.2.le
  rw [roundZ_int] at c1 c2
  rw [rd_of_pos h, pow2_eq] at *
  exact rd_form (by rw [abs_of_nonneg (le_trans (by norm_num) c1)]; exact c2)

theorem rd_mono {x y : ℚ} (h : x ≤ y) : rd x ≤ rd y := by
  have pos : ∀ {x y : ℚ}, 0 < x → x ≤ y → rd x ≤ rd y := by
    intro x y h0 h
    have hy := lt_of_lt_of_le h0 h
    rcases (lg_mono h0 h).lt_or_eq with hl | he
    · exact (rd_bounds h0).2.trans ((zpow_le_zpow_right₀ (by norm_num) (by omega)).trans (rd_bounds hy).1)
    · rw [rd_of_pos h0, rd_of_pos hy, he]
      refine mul_le_mul_of_nonneg_right ?_ (pow2_pos _).le
      exact_mod_cast roundZ_mono (div_le_div_of_nonneg_right h (pow2_pos _).le)
  have nn : ∀ {x : ℚ}, 0 < x → 0 ≤ rd x := fun h0 => le_trans (by positivity) (rd_bounds h0).1
  rcases lt_trichotomy x 0 with hx | rfl | hx
  · rcases lt_trichotomy y 0 with hy | rfl | hy
    · have := pos (x := -y) (y := -x) (by linarith) (by linarith)
      rw [rd_neg, rd_neg] at this
      linarith
    · have := nn (x := -x) (by linarith)
      rw [rd_neg] at this
      rw [rd_zero]; linarith
    · have h1 := nn (x := -x) (by linarith)
      have h2 := nn hy
      rw [rd_neg] at h1
      linarith
  · rcases h.lt_or_eq with hy | rfl
    · rw [rd_zero]; exact nn hy
    · exact le_refl _
  · exact pos hx h

/-- The error is at most half a unit in the last place. -/
theorem rd_near {x : ℚ} (h : 0 < x) : |rd x - x| ≤ 2 ^ (lg x - 53) := by
  have hp := pow2_pos (lg x - 52)
  have := roundZ_near (x / pow2 (lg x - 52))
  rw [rd_of_pos h]
  have e : (roundZ (x / pow2 (lg x - 52)) : ℚ) * pow2 (lg x - 52) - x =
      ((roundZ (x / pow2 (lg x - 52)) : ℚ) - x / pow2 (lg x - 52)) * pow2 (lg x - 52) := by
    rw [sub_mul, div_mul_cancel₀ _ hp.ne']
  rw [e, abs_mul, abs_of_pos hp]
  calc _ ≤ 1 / 2 * pow2 (lg x - 52) := mul_le_mul_of_nonneg_right this hp.le
    _ = 2 ^ (lg x - 53) := by
      rw [pow2_eq, show lg x - 52 = (lg x - 53) + 1 by ring, zpow_add₀ (by norm_num)]; norm_num; ring

/-- A floating point number. -/
def F64 : Type := { x : ℚ // rd x = x }

namespace F64

instance : LinearOrder F64 := inferInstanceAs (LinearOrder { x : ℚ // rd x = x })

/-- The nearest floating point number. -/
def of (x : ℚ) : F64 := ⟨rd x, rd_idem x⟩

/-- The operations are exact, then the result is rounded. -/
instance : Zero F64 := ⟨⟨0, rd_zero⟩⟩
instance : One F64 := ⟨of 1⟩
instance : Add F64 := ⟨fun a b => of (a.1 + b.1)⟩
instance : Sub F64 := ⟨fun a b => of (a.1 - b.1)⟩
instance : Mul F64 := ⟨fun a b => of (a.1 * b.1)⟩
instance : Div F64 := ⟨fun a b => of (a.1 / b.1)⟩
instance : Neg F64 := ⟨fun a => of (-a.1)⟩
instance : NatCast F64 := ⟨fun n => of n⟩
instance : IntCast F64 := ⟨fun n => of n⟩
instance : Pow F64 ℕ := ⟨fun a n => of (a.1 ^ n)⟩
instance : IntParts F64 := ⟨fun a => ⌊a.1⌋, fun a => ⌈a.1⌉⟩

theorem rep (a : F64) : rd a.1 = a.1 := a.2
theorem of_val (a : F64) : of a.1 = a := Subtype.ext a.2

instance : AddZeroClass F64 where
  zero_add a := by show of (0 + a.1) = a; rw [zero_add, of_val]
  add_zero a := by show of (a.1 + 0) = a; rw [add_zero, of_val]

theorem le_iff {a b : F64} : a ≤ b ↔ a.1 ≤ b.1 := Iff.rfl
theorem lt_iff {a b : F64} : a < b ↔ a.1 < b.1 := Iff.rfl

theorem of_mono {x y : ℚ} (h : x ≤ y) : of x ≤ of y := rd_mono h

/-- A floating point number below the rounded one is below the exact one. -/
theorem lt_of {a : F64} {x : ℚ} (h : a < of x) : a.1 < x := by
  by_contra hc
  have := of_mono (not_lt.1 hc)
  rw [of_val] at this
  exact absurd h (not_lt.2 this)

theorem of_lt {a : F64} {x : ℚ} (h : of x < a) : x < a.1 := by
  by_contra hc
  have := of_mono (not_lt.1 hc)
  rw [of_val] at this
  exact absurd h (not_lt.2 this)

theorem of_le {a : F64} {x : ℚ} (h : x ≤ a.1) : of x ≤ a := by
  have := of_mono h
  rwa [of_val] at this

theorem le_of {a : F64} {x : ℚ} (h : a.1 ≤ x) : a ≤ of x := by
  have := of_mono h
  rwa [of_val] at this

theorem one_val : (1 : F64).1 = 1 := by
  have := rd_form (m := 1) (e := 0) (by norm_num)
  rw [zpow_zero, mul_one, Int.cast_one] at this
  exact this

/-- A floating point number below one is at most `1 - 2 ^ (-53)`. -/
theorem lt_one {u : F64} (h : u < 1) : u.1 ≤ 1 - 2 ^ (-53 : ℤ) := by
  have h : u.1 < 1 := by rw [← one_val]; exact h
  by_cases hs : u.1 < 1 / 2
  · refine hs.le.trans ?_
    norm_num
  · have hs := not_lt.1 hs
    have h0 : 0 < u.1 := by linarith
    have hl : lg u.1 = -1 := lg_eq (by norm_num; linarith) (by norm_num; exact h)
    have hu := u.2
    rw [rd_of_pos h0, hl, pow2_eq] at hu
    set m := roundZ (u.1 / 2 ^ ((-1 : ℤ) - 52)) with hm
    have hm1 : m < 2 ^ 53 := by
      by_contra hc
      have : ((2 ^ 53 : ℤ) : ℚ) ≤ (m : ℚ) := by exact_mod_cast not_lt.1 hc
      have := mul_le_mul_of_nonneg_right this (by positivity : (0 : ℚ) ≤ 2 ^ ((-1 : ℤ) - 52))
      rw [hu] at this
      norm_num at this
      linarith
    have hm2 : (m : ℚ) ≤ ((2 ^ 53 - 1 : ℤ) : ℚ) := by exact_mod_cast (by omega : m ≤ 2 ^ 53 - 1)
    have := mul_le_mul_of_nonneg_right hm2 (by positivity : (0 : ℚ) ≤ 2 ^ ((-1 : ℤ) - 52))
    rw [hu] at this
    refine this.trans ?_
    norm_num

/-- Multiplying by a number below one makes a positive number smaller, in spite of rounding. -/
theorem mul_lt_self {d u : F64} (hd : 0 < d) (hu : u < 1) : d * u < d := by
  show rd (d.1 * u.1) < d.1
  have hd : 0 < d.1 := hd
  have h1 := lt_one hu
  rcases le_or_gt u.1 0 with hu0 | hu0
  · have : rd (d.1 * u.1) ≤ rd 0 := rd_mono (mul_nonpos_of_nonneg_of_nonpos hd.le hu0)
    rw [rd_zero] at this
    linarith
  have hy0 : 0 < d.1 * u.1 := mul_pos hd hu0
  obtain ⟨a, b⟩ := lg_spec hd
  set e := lg d.1 with he
  have hp : (0 : ℚ) < 2 ^ e := by positivity
  have hsmall : d.1 * u.1 ≤ d.1 - d.1 * 2 ^ (-53 : ℤ) := by
    have := mul_le_mul_of_nonneg_left h1 hd.le
    linarith
  rcases a.lt_or_eq with a | a
  · by_cases hc : (2 : ℚ) ^ e ≤ d.1 * u.1
    · have hl : lg (d.1 * u.1) = e := lg_eq hc (lt_of_lt_of_le (by
        have : d.1 * u.1 < d.1 := by
          have : 0 < d.1 * 2 ^ (-53 : ℤ) := by positivity
          linarith
        exact this) b.le)
      have hn := rd_near hy0
      rw [hl, abs_le] at hn
      have hs : (2 : ℚ) ^ (e - 53) < d.1 * 2 ^ (-53 : ℤ) := by
        rw [sub_eq_add_neg, zpow_add₀ (by norm_num)]
        exact mul_lt_mul_of_pos_right a (by positivity)
      linarith [hn.2]
    · have h2 := rd_mono (not_le.1 hc).le
      have h3 := rd_form (m := 1) (e := e) (by norm_num)
      rw [Int.cast_one, one_mul] at h3
      rw [h3] at h2
      linarith
  · have h2 : rd (d.1 * u.1) = d.1 * u.1 := by
      have hu' := u.2
      rw [rd_of_pos hu0, pow2_eq] at hu'
      have hb := scaled_bounds hu0
      have c1 := roundZ_mono hb.1
      have c2 := roundZ_mono hb.2.le
      rw [roundZ_int] at c1 c2
      rw [pow2_eq] at c1 c2
      have h4 := rd_form (m := roundZ (u.1 / 2 ^ (lg u.1 - 52))) (e := (lg u.1 - 52) + e)
        (by rw [abs_of_nonneg (le_trans (by norm_num) c1)]; exact c2)
      rw [zpow_add₀ (by norm_num), ← mul_assoc, hu', mul_comm u.1, a] at h4
      exact h4
    rw [h2]
    have : 0 < d.1 * 2 ^ (-53 : ℤ) := by positivity
    linarith

/-- A uniform draw between two bounds stays between them, in spite of rounding. -/
theorem unif_mem {a b u : F64} (hab : a ≤ b) (h0 : 0 ≤ u) (h1 : u < 1) : a ≤ a + (b - a) * u ∧ a + (b - a) * u ≤ b := by
  have hab' : a.1 ≤ b.1 := hab
  have hd : (0 : F64) ≤ b - a := le_of (by show (0 : ℚ) ≤ b.1 - a.1; linarith)
  have hw0 : (0 : F64) ≤ (b - a) * u := le_of (by show (0 : ℚ) ≤ (b - a).1 * u.1; exact mul_nonneg hd h0)
  constructor
  · refine le_of ?_
    have : (0 : ℚ) ≤ ((b - a) * u).1 := hw0
    linarith
  · refine of_le ?_
    have : ((b - a) * u).1 ≤ b.1 - a.1 := by
      rcases hd.lt_or_eq with hd | hd
      · exact (lt_of (mul_lt_self hd h1)).le
      · rw [← hd]
        show rd (0 * u.1) ≤ _
        rw [zero_mul, rd_zero]; linarith
    linarith

/-- Integer part of the square root, by Newton's iteration from above. -/
def isqrt (n : Nat) : Nat :=
  (List.range (Nat.log2 n + 2)).foldl (fun x _ => min x ((x + n / x) / 2)) (2 ^ (Nat.log2 n / 2 + 1))

/-- Square root: 61 bits of the exact root, and one more that says whether it is exact, then rounding. -/
def sqrt (a : F64) : F64 :=
  if a ≤ 0 then 0
  else
    let e : ℤ := lg a.1 / 2 - 60
    let m : Nat := (⌊a.1 / pow2 (2 * e)⌋).toNat
    let r := isqrt m
    of ((if r * r = m then (r : ℚ) else (r : ℚ) + 1 / 2) * pow2 e)

/-- Sums from left to right. -/
instance : ArrayOps F64 where
  sum v := (List.ofFn v).foldl (· + ·) 0
  dot v w := (List.ofFn fun j => v j * w j).foldl (· + ·) 0
  normLe v tol := decide (sqrt ((List.ofFn fun j => v j * v j).foldl (· + ·) 0) ≤ tol)

end F64

end Stochopy
