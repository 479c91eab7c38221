import Verif.Base.F64

/-!
# What correctly rounded operations keep of the laws of a field
-/

set_option linter.unusedSectionVars false

namespace Stochopy

/-- Laws that hold in an ordered field and survive rounding to nearest: monotonicity, signs, and that a uniform draw between
two bounds stays between them. -/
class RoundedOps (K : Type) [AddZeroClass K] [One K] [Sub K] [Mul K] [Div K] [LinearOrder K] : Prop where
  zero_le_one : (0 : K) ≤ 1
  add_le_add : ∀ {a b c d : K}, a ≤ b → c ≤ d → a + c ≤ b + d
  sub_le_sub : ∀ {a b c d : K}, a ≤ b → d ≤ c → a - c ≤ b - d
  sub_self : ∀ a : K, a - a = 0
  mul_nonneg : ∀ {a b : K}, 0 ≤ a → 0 ≤ b → 0 ≤ a * b
  mul_le_right : ∀ {x s : K}, x ≤ 1 → 0 ≤ s → x * s ≤ s
  div_nonneg : ∀ {a b : K}, 0 ≤ a → 0 < b → 0 ≤ a / b
  div_le_one : ∀ {a b : K}, a ≤ b → 0 < b → a / b ≤ 1
  unif_mem : ∀ {a b u : K}, a ≤ b → 0 ≤ u → u < 1 → a ≤ a + (b - a) * u ∧ a + (b - a) * u ≤ b

/-- Exact arithmetic. -/
instance RoundedOps.ofField {K : Type} [Field K] [LinearOrder K] [IsStrictOrderedRing K] : RoundedOps K where
  zero_le_one := _root_.zero_le_one
  add_le_add := _root_.add_le_add
  sub_le_sub := _root_.sub_le_sub
  sub_self := _root_.sub_self
  mul_nonneg := _root_.mul_nonneg
  mul_le_right h hs := by
    have := mul_le_mul_of_nonneg_right h hs
    rwa [one_mul] at this
  div_nonneg h hb := _root_.div_nonneg h hb.le
  div_le_one h hb := (_root_.div_le_one hb).2 h
  unif_mem {a b u} h h0 h1 := by
    have h2 : 0 ≤ b - a := sub_nonneg.2 h
    constructor
    · have := _root_.mul_nonneg h2 h0; linarith
    · have := mul_le_mul_of_nonneg_left h1.le h2; linarith

/-- Floating point numbers. -/
instance : RoundedOps F64 where
  zero_le_one := by show (0 : ℚ) ≤ (1 : F64).1; rw [F64.one_val]; norm_num
  add_le_add h h' := F64.of_mono (_root_.add_le_add (F64.le_iff.1 h) (F64.le_iff.1 h'))
  sub_le_sub h h' := F64.of_mono (_root_.sub_le_sub (F64.le_iff.1 h) (F64.le_iff.1 h'))
  sub_self a := by
    show F64.of (a.1 - a.1) = 0
    rw [_root_.sub_self]; exact Subtype.ext rd_zero
  mul_nonneg h h' := F64.le_of (_root_.mul_nonneg (F64.le_iff.1 h) (F64.le_iff.1 h'))
  mul_le_right {x s} h hs := by
    refine F64.of_le ?_
    have h : x.1 ≤ 1 := by have := F64.le_iff.1 h; rwa [F64.one_val] at this
    have := mul_le_mul_of_nonneg_right h (F64.le_iff.1 hs)
    rwa [one_mul] at this
  div_nonneg h hb := F64.le_of (_root_.div_nonneg (F64.le_iff.1 h) (F64.lt_iff.1 hb).le)
  div_le_one h hb := F64.of_le (by
    rw [F64.one_val]; exact (_root_.div_le_one (F64.lt_iff.1 hb)).2 (F64.le_iff.1 h))
  unif_mem := F64.unif_mem

section
variable {K : Type} [AddZeroClass K] [One K] [Sub K] [Mul K] [Div K] [LinearOrder K] [RoundedOps K]

theorem unif_mem {lo hi u : K} (h : lo ≤ hi) (h0 : 0 ≤ u) (h1 : u < 1) : lo ≤ unif lo hi u ∧ unif lo hi u ≤ hi :=
  RoundedOps.unif_mem h h0 h1

end

end Stochopy
