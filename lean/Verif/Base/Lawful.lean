import Verif.Base.Num
import Mathlib.Analysis.SpecialFunctions.Log.Basic
import Mathlib.Analysis.SpecialFunctions.Sqrt
import Mathlib.Analysis.SpecialFunctions.Pow.Real

/-!
# Laws of the elementary functions and their real instance
-/

namespace Stochopy

/-- The only facts about the elementary functions used by theorems about models over an abstract field. -/
class LawfulNumFns (K : Type) [Field K] [LinearOrder K] [NumFns K] : Prop where
  exp_pos : ∀ x : K, 0 < NumFns.exp x
  log_neg : ∀ x : K, 0 < x → x < 1 → NumFns.log x < 0
  log_lt : ∀ x y : K, 0 < x → x < y → NumFns.log x < NumFns.log y
  sqrt_pos : ∀ x : K, 0 < x → 0 < NumFns.sqrt x
  sqrt_nonneg : ∀ x : K, 0 ≤ x → 0 ≤ NumFns.sqrt x
  pow_pos : ∀ x y : K, 0 < x → 0 < NumFns.pow x y

/-- The only fact about the logarithm used by theorems about rounded arithmetic. -/
class NegativeLog (K : Type) [Zero K] [One K] [LinearOrder K] [NumFns K] : Prop where
  log_neg : ∀ x : K, 0 < x → x < 1 → NumFns.log x < 0

instance {K : Type} [Field K] [LinearOrder K] [NumFns K] [LawfulNumFns K] : NegativeLog K := ⟨LawfulNumFns.log_neg⟩

noncomputable instance : NumFns ℝ where
  sqrt := Real.sqrt
  exp := Real.exp
  log := Real.log
  pow := Real.rpow

instance : LawfulNumFns ℝ where
  exp_pos := Real.exp_pos
  log_neg _ h0 h1 := Real.log_neg h0 h1
  log_lt _ _ h0 h1 := Real.log_lt_log h0 h1
  sqrt_pos _ h := Real.sqrt_pos.2 h
  sqrt_nonneg _ _ := Real.sqrt_nonneg _
  pow_pos _ _ h := Real.rpow_pos_of_pos h _

end Stochopy
