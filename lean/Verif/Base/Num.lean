import Mathlib.Algebra.Order.Floor.Ring
import Mathlib.Algebra.Order.Field.Basic
import Mathlib.Algebra.BigOperators.Fin
import Mathlib.Logic.Equiv.Defs
import Verif.Base.Val

/-!
# Python exceptions, NumPy primitives, the random generator
-/

namespace Stochopy

/-- Outcomes other than a normal return.  The last two are not Python exceptions: `outOfFuel` marks a model run
whose fuel was exhausted, i.e. a loop that is still running; `unmodelled` a run of CMA-ES or VD-CMA in which an
operation would leave the finite floats (a division by zero, the root or logarithm of a negative number), where the code
goes on with NaN or infinity and the model stops. -/
inductive PyErr where
  | typeError | valueError | indexError | keyError | importError | recursionError | attributeError
  | outOfFuel | unmodelled
  deriving DecidableEq, Repr

/-- A 1-D float array of length `n`. -/
abbrev Vec (K : Type) (n : Nat) := Fin n → K
/-- A 2-D float array of shape `(p, n)`. -/
abbrev Pop (K : Type) (p n : Nat) := Fin p → Vec K n

/-- A user supplied array: its shape and its entries (entries outside the shape are never read). -/
structure NdArr (K : Type) where
  shape : List Nat
  get : List Nat → K

/-- `np.ndim`. -/
def NdArr.ndim {K} (a : NdArr K) : Nat := a.shape.length
/-- `len` (of an array with at least one axis). -/
def NdArr.len {K} (a : NdArr K) : Nat := a.shape.headD 0
/-- `np.shape(a)[1]`. -/
def NdArr.dim1 {K} (a : NdArr K) : Nat := a.shape.getD 1 0

section
variable {K : Type}

/-- `np.argmin` on a float array: the first NaN if there is one, else the first minimum.
NumPy's loop replaces the current best `b` by `i` when `not (v[i] >= v[b])` and stops at a NaN.
`none` is the empty array (NumPy raises ValueError). -/
def argminStep [LE K] [DecidableLE K] {p : Nat} (v : Fin p → Val K) (b : Option (Fin p)) (i : Fin p) :
    Option (Fin p) :=
  match b with
  | none => some i
  | some b => if (v b).isNan then some b else if v b ≤ v i then some b else some i

def argmin? [LE K] [DecidableLE K] {p : Nat} (v : Fin p → Val K) : Option (Fin p) :=
  (List.finRange p).foldl (argminStep v) none

/-- `np.argmin`, raising ValueError on the empty array. -/
def argmin [LE K] [DecidableLE K] {p : Nat} (v : Fin p → Val K) : Except PyErr (Fin p) :=
  match argmin? v with
  | some i => .ok i
  | none => .error .valueError

/-- NumPy's sort order: NaN last. -/
def sortLe [LE K] (a b : Val K) : Prop := b = .nan ∨ a ≤ b

/-- `np.argsort` of arrays of every length: position `k` of the sorted array holds entry `argsort m v k`. -/
abbrev Argsort (K : Type) := (m : Nat) → (Fin m → Val K) → Equiv.Perm (Fin m)

/-- What is assumed of `np.argsort`: the sorted array is ascending with NaNs last.
Tie-breaking is arbitrary (NumPy's default sort is unstable). -/
def IsArgsort [LE K] (s : Argsort K) : Prop :=
  ∀ (m : Nat) (v : Fin m → Val K) (a b : Fin m), a ≤ b → sortLe (v (s m v a)) (v (s m v b))

/-- Reductions over arrays.  Nothing is assumed of them where `K` is not a field: the order in which NumPy and BLAS add
the terms is not specified. -/
class ArrayOps (K : Type) where
  /-- `np.sum` -/
  sum : {n : Nat} → Vec K n → K
  /-- `np.dot` of two vectors -/
  dot : {n : Nat} → Vec K n → Vec K n → K
  /-- `np.linalg.norm(v) <= tol` -/
  normLe : {n : Nat} → Vec K n → K → Bool

/-- Exact arithmetic.  The comparison with the norm is written without the square root
(see `Lemmas/Norm.lean`: over `ℝ` this is `sqrt (∑ (v j)^2) ≤ tol`). -/
instance ArrayOps.ofField [Field K] [LinearOrder K] : ArrayOps K where
  sum v := ∑ j, v j
  dot v w := ∑ j, v j * w j
  normLe v tol := decide (0 ≤ tol) && decide (∑ j, (v j) ^ 2 ≤ tol ^ 2)

/-- `np.linalg.norm(a - b) <= tol`. -/
def distLe [Sub K] [ArrayOps K] {n : Nat} (a b : Vec K n) (tol : K) : Bool :=
  ArrayOps.normLe (fun j => a j - b j) tol

/-- `np.floor` and `np.ceil`, converted to integers. -/
class IntParts (K : Type) where
  floor : K → Int
  ceil : K → Int

instance IntParts.ofFloorRing [Ring K] [LinearOrder K] [FloorRing K] : IntParts K where
  floor x := ⌊x⌋
  ceil x := ⌈x⌉

@[simp] theorem IntParts.floor_eq [Ring K] [LinearOrder K] [FloorRing K] (x : K) : IntParts.floor x = ⌊x⌋ := rfl
@[simp] theorem IntParts.ceil_eq [Ring K] [LinearOrder K] [FloorRing K] (x : K) : IntParts.ceil x = ⌈x⌉ := rfl
@[simp] theorem ArrayOps.sum_eq [Field K] [LinearOrder K] {n : Nat} (v : Vec K n) : ArrayOps.sum v = ∑ j, v j := rfl
@[simp] theorem ArrayOps.dot_eq [Field K] [LinearOrder K] {n : Nat} (v w : Vec K n) : ArrayOps.dot v w = ∑ j, v j * w j := rfl

/-- `np.abs`. -/
def absv [Neg K] [LinearOrder K] (x : K) : K := max x (-x)

@[simp] theorem absv_eq [Field K] [LinearOrder K] (x : K) : absv x = |x| := rfl

/-- Python's `int(x)`: truncation towards zero. -/
def pyInt [Zero K] [LinearOrder K] [IntParts K] (x : K) : Int :=
  if 0 ≤ x then IntParts.floor x else IntParts.ceil x

/-- Sequence a row-wise computation (Python evaluates rows `0, 1, …` and stops at the first exception). -/
def seqFin {ε α : Type} : {p : Nat} → (Fin p → Except ε α) → Except ε (Fin p → α)
  | 0, _ => .ok Fin.elim0
  | _ + 1, f => do
    let a ← f 0
    let r ← seqFin (fun i => f i.succ)
    .ok (Fin.cons a r)

/-- The elementary functions that are not field operations. -/
class NumFns (K : Type) where
  sqrt : K → K
  exp : K → K
  log : K → K
  /-- `x ** y` -/
  pow : K → K → K

end

/-- `np.random`: a generator with state `σ`.  Each field draws one item and returns the new state. -/
structure Rng (σ K : Type) where
  /-- `np.random.seed(s)` -/
  seed : Int → σ
  /-- one double of `np.random.rand`/`np.random.uniform(size=…)` -/
  rand : σ → K × σ
  /-- one standard normal of `np.random.randn` -/
  randn : σ → K × σ
  /-- `np.random.randint(n)` -/
  randint : Nat → σ → Nat × σ
  /-- `np.random.permutation` of an array of length `m`, as a permutation of its positions -/
  perm : (m : Nat) → σ → Equiv.Perm (Fin m) × σ

/-- The only facts assumed about the generator. -/
structure Rng.Ok {σ K : Type} [Zero K] [One K] [LinearOrder K] (R : Rng σ K) : Prop where
  rand_nonneg : ∀ g, 0 ≤ (R.rand g).1
  rand_lt_one : ∀ g, (R.rand g).1 < 1
  randint_lt : ∀ n g, 0 < n → (R.randint n g).1 < n

/-- Draw an array of `n` items one after the other with the elementary draw `d`. -/
def drawVec {σ α : Type} (d : σ → α × σ) (n : Nat) (g : σ) : (Fin n → α) × σ :=
  (fun j => (d ((fun g => (d g).2)^[j.val] g)).1, (fun g => (d g).2)^[n] g)

/-- Draw a `(p, n)` array in row-major order. -/
def drawMat {σ α : Type} (d : σ → α × σ) (p n : Nat) (g : σ) : (Fin p → Fin n → α) × σ :=
  drawVec (drawVec d n) p g

/-- `np.random.uniform(lo, hi)` is `lo + (hi - lo) * u` with `u` in `[0, 1)`. -/
def unif {K : Type} [Add K] [Sub K] [Mul K] (lo hi u : K) : K := lo + (hi - lo) * u

end Stochopy
