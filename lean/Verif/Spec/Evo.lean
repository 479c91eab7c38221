import Verif.Spec.Run
import Verif.Model.Evo

/-!
# Vocabulary for `cmaes` and `vdcma`
-/

namespace Stochopy.Spec

variable {σ K : Type} [AddZeroClass K] [One K] [Sub K] [Mul K] [Div K] [Neg K] [NatCast K] [IntCast K] [Pow K ℕ] [ArrayOps K] [LinearOrder K] {p n : Nat}

/-- C40: what the status of a completed run means. -/
structure StatusEvo (maxiter : Int) (ftol : Val K) (o : Output σ K p n) : Prop where
  codes : o.res.status ∈ ([-8, -7, -6, -5, -4, -3, -2, -1, 0, 1] : List Int)
  success : o.res.success = true ↔ o.res.status = 0 ∨ o.res.status = 1
  reached : o.res.success = true ↔ o.res.fval ≤ ftol ∧ (o.res.nit : Int) < maxiter
  strict : o.res.status = 0 → o.res.fval < ftol
  budget : o.res.status = -1 ↔ (o.res.nit : Int) = maxiter
  message : Documented o.res.status o.res.message

/-- `x` is a number with `|x| < e`. -/
def Below (x : Val K) (e : K) : Prop := ∃ b : K, x = .fin b ∧ max b (-b) < e

/-- What the two range tests mean: status -5 says that the last `ilim` best values are below 1e-10 in absolute value, status
-7 that all best values and the whole last population are below 1e-12 in absolute value. -/
structure RangeTests (ilim : Nat) (o : Output σ K p n) : Prop where
  equalFun : o.res.status = -5 → ilim ≤ o.res.nit ∧ Below o.res.fval (1 / 10 ^ 10) ∧
    ∀ b ∈ o.cbs, o.res.nit < b.nit + ilim → Below b.fval (1 / 10 ^ 10)
  tolFun : o.res.status = -7 → 3 ≤ o.res.nit ∧ Below o.res.fval (1 / 10 ^ 12) ∧ ∀ b ∈ o.cbs, Below b.fval (1 / 10 ^ 12)

/-- The points evaluated in the last generation. -/
def lastGeneration (o : Output σ K p n) : List (Vec K n) := o.evals.drop (o.evals.length - p)

/-- C38, as far as it holds: the result is the best point of the last generation. -/
def BestOfLastGeneration (fn : Vec K n → Val K) (o : Output σ K p n) : Prop :=
  ReportsEvaluatedPoint fn o ∧ (lastGeneration o).length = p ∧ ∀ x ∈ lastGeneration o, fn x ≠ .nan → o.res.fval ≤ fn x

/-- Every callback reports the best value of the generation it shows. -/
def CallbacksReportBest (fn : Vec K n → Val K) (o : Output σ K p n) : Prop :=
  ∀ b ∈ o.cbs, b.fval = fn b.x ∧ (∃ i, b.x = b.X i) ∧ ∀ i, fn (b.X i) ≠ .nan → b.fval ≤ fn (b.X i)

/-- The run stops at the first generation that reaches `ftol`. -/
def StopsWhenReached (ftol : Val K) (o : Output σ K p n) : Prop :=
  ∀ b ∈ o.cbs, b.fval ≤ ftol → b.nit = o.res.nit

/-- `R point value` for everything that is reported: the result, the callbacks, the history. -/
def AllReported (R : Vec K n → Val K → Prop) (o : Output σ K p n) : Prop :=
  R o.res.x o.res.fval ∧ (∀ b ∈ o.cbs, R b.x b.fval) ∧
  ∀ xs fs, o.res.xall = some xs → o.res.funall = some fs →
    ∀ (k : Nat) (rx : List (Vec K n)) (rf : List (Val K)), xs[k]? = some rx → fs[k]? = some rf → List.Forall₂ R rx rf

/-- C37: evaluated, shown and recorded points satisfy the bounds. -/
structure AllInBox (lower upper : Vec K n) (o : Output σ K p n) : Prop where
  evals : ∀ x ∈ o.evals, InBox lower upper x
  shown : ∀ b ∈ o.cbs, ∀ i, InBox lower upper (b.X i)
  reported : AllReported (fun x _ => InBox lower upper x) o

/-- The objective has only finite values. -/
def FiniteValued (fn : Vec K n → Val K) : Prop := ∀ x, ∃ k, fn x = .fin k

/-- Valid arguments of 'cmaes' and 'vdcma'. -/
structure ValidEvo (env : Env) (a : Evo.Args K) : Prop where
  objective : a.fn.isSome
  bounds : a.bounds.shape = [a.bounds.len, 2]
  x0 : ∀ x, a.x0 = some x → x.shape = [a.bounds.len]
  sigma : 0 < a.sigma
  muperc : 0 < a.muperc ∧ a.muperc ≤ 1
  callback : a.callback ≠ some false
  constraints : a.constraints ∈ [none, some "Penalize"]
  maxiter : 1 ≤ a.maxiter
  history : a.returnAll = true → a.verbosity ≤ 1 ∨ a.popsize = 1
  mpi : a.backend = some "mpi" → env.mpi4py = true

/-- `e` is a justified exception. -/
def MisuseEvo (env : Env) (a : Evo.Args K) : PyErr → Prop
  | .typeError => a.fn = none
  | .valueError => a.bounds.shape ≠ [a.bounds.len, 2] ∨ (∃ x, a.x0 = some x ∧ x.shape ≠ [a.bounds.len]) ∨ a.sigma ≤ 0 ∨
      ¬ (0 < a.muperc ∧ a.muperc ≤ 1) ∨ a.callback = some false ∨ a.maxiter < 0 ∨
      (a.returnAll = true ∧ 1 < a.verbosity ∧ a.popsize ≠ 1)
  | .keyError => a.constraints ∉ [none, some "Penalize"]
  | .indexError => a.maxiter = 0
  | .importError => a.backend = some "mpi" ∧ env.mpi4py = false
  | _ => False

/-- At least one dimension and one parent; the starting point is not used with an empty interval. -/
structure Sizes (a : Evo.Args K) : Prop where
  dim : 0 < a.bounds.len
  popsize : 0 < a.popsize
  parents : 1 ≤ a.muperc * (a.popsize : K)
  width : a.x0 ≠ none → ∀ j, a.lower j ≠ a.upper j

/-- `m` is a weighted mean, with positive decreasing weights of sum 1, of `mu` different points of `X` in order of their values;
no other point has a smaller value. -/
def WeightedBest {K : Type} [Field K] [LinearOrder K] (mu : Nat) (fit : Fin p → Val K) (X : Pop K p n) (m : Vec K n) : Prop :=
  ∃ (sel : Fin mu → Fin p) (w : Fin mu → K), Function.Injective sel ∧
    (∀ k, 0 < w k) ∧ (∀ k l, k < l → w l < w k) ∧ ∑ k, w k = 1 ∧
    (∀ k l, k ≤ l → sortLe (fit (sel k)) (fit (sel l))) ∧
    (∀ i, (∀ k, i ≠ sel k) → ∀ k, sortLe (fit (sel k)) (fit i)) ∧
    ∀ j, m j = ∑ k, w k * X (sel k) j

end Stochopy.Spec
