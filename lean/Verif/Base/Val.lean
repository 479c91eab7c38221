import Mathlib.Order.Defs.LinearOrder
import Mathlib.Order.Basic
import Mathlib.Algebra.Order.Ring.Defs
import Mathlib.Tactic.Cases

/-!
# Objective values: numbers with NaN and infinities

`Val K` is what a Python float can be, with the finite doubles replaced by an ordered type `K` of numbers
(a field, or floating point numbers: Base/F64.lean).  `≤` and `<` are the IEEE-754 comparisons: they are false as soon as one
side is NaN, so `≤` is not reflexive at `nan`.
-/

namespace Stochopy

/-- A Python/NumPy float: NaN, -inf, a finite number or +inf. -/
inductive Val (K : Type) where
  | nan
  | ninf
  | fin (k : K)
  | pinf
  deriving DecidableEq, Repr

namespace Val

variable {K : Type}

/-- `np.isnan`. -/
def isNan : Val K → Bool
  | nan => true
  | _ => false

/-- IEEE `<=` (false if an operand is NaN). -/
protected def le [LE K] : Val K → Val K → Prop
  | nan, _ => False
  | _, nan => False
  | ninf, _ => True
  | _, pinf => True
  | fin a, fin b => a ≤ b
  | _, _ => False

/-- IEEE `<` (false if an operand is NaN). -/
protected def lt [LT K] : Val K → Val K → Prop
  | nan, _ => False
  | _, nan => False
  | ninf, ninf => False
  | ninf, _ => True
  | pinf, _ => False
  | fin _, pinf => True
  | fin a, fin b => a < b
  | fin _, ninf => False

instance [LE K] : LE (Val K) := ⟨Val.le⟩
instance [LT K] : LT (Val K) := ⟨Val.lt⟩

instance [LE K] [DecidableLE K] : DecidableLE (Val K) := fun a b => by
  cases a <;> cases b <;> simp only [LE.le, Val.le] <;> infer_instance

instance [LT K] [DecidableLT K] : DecidableLT (Val K) := fun a b => by
  cases a <;> cases b <;> simp only [LT.lt, Val.lt] <;> infer_instance

/-- IEEE addition. -/
protected def add [Add K] : Val K → Val K → Val K
  | nan, _ => nan
  | _, nan => nan
  | ninf, pinf => nan
  | pinf, ninf => nan
  | ninf, _ => ninf
  | _, ninf => ninf
  | pinf, _ => pinf
  | _, pinf => pinf
  | fin a, fin b => fin (a + b)

/-- IEEE negation. -/
protected def neg [Neg K] : Val K → Val K
  | nan => nan
  | ninf => pinf
  | pinf => ninf
  | fin a => fin (-a)

/-- IEEE subtraction. -/
protected def sub [Add K] [Neg K] (a b : Val K) : Val K := Val.add a (Val.neg b)

instance [Add K] : Add (Val K) := ⟨Val.add⟩
instance [Neg K] : Neg (Val K) := ⟨Val.neg⟩
instance [Add K] [Neg K] : Sub (Val K) := ⟨Val.sub⟩

/-- An infinity with the sign of `k` times `s` (`s` is the infinity for positive `k`, `t` the one for negative `k`). -/
private def signed [Zero K] [LT K] [DecidableLT K] (s t : Val K) (k : K) : Val K :=
  if 0 < k then s else if k < 0 then t else nan

/-- IEEE multiplication (`inf * 0` is NaN). -/
protected def mul [Zero K] [Mul K] [LT K] [DecidableLT K] : Val K → Val K → Val K
  | nan, _ => nan
  | _, nan => nan
  | fin a, fin b => fin (a * b)
  | pinf, fin b => signed pinf ninf b
  | ninf, fin b => signed ninf pinf b
  | fin a, pinf => signed pinf ninf a
  | fin a, ninf => signed ninf pinf a
  | pinf, pinf => pinf
  | ninf, ninf => pinf
  | pinf, ninf => ninf
  | ninf, pinf => ninf

instance [Zero K] [Mul K] [LT K] [DecidableLT K] : Mul (Val K) := ⟨Val.mul⟩

/-- Division by a finite float (a zero divisor is a positive zero). -/
def divBy [Zero K] [Div K] [LT K] [DecidableLT K] [DecidableEq K] : Val K → K → Val K
  | nan, _ => nan
  | fin a, b => if b = 0 then signed pinf ninf a else fin (a / b)
  | pinf, b => if b < 0 then ninf else pinf
  | ninf, b => if b < 0 then pinf else ninf

/-- Python's builtin `min(a, b)`: returns `b` only when `b < a` holds, so `min(0.0, nan) = 0.0`. -/
def pyMin [LT K] [DecidableLT K] (a b : Val K) : Val K := if b < a then b else a

end Val
end Stochopy
