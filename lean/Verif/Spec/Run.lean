import Verif.Model.Driver

/-!
# Vocabulary for statements about completed runs

Everything here talks about the observable `Output` of a call (result, callback calls, objective calls, contents of the
caller's array) and never about the internals of an optimizer.
-/

namespace Stochopy.Spec

variable {σ K : Type} [AddZeroClass K] [One K] [Sub K] [Mul K] [Div K] [Neg K] [NatCast K] [IntCast K] [Pow K ℕ] [ArrayOps K] [LinearOrder K] {p n : Nat}

/-- `b` is not a worse value than `a` (a NaN may be replaced by anything, a number only by a number `<=`). -/
def NotWorse (a b : Val K) : Prop := a = .nan ∨ b ≤ a

/-- `x` satisfies the bounds. -/
def InBox (lower upper x : Vec K n) : Prop := ∀ j, lower j ≤ x j ∧ x j ≤ upper j

/-- The documented text of a status code (copied from the documentation of the result, independent of the model). -/
def Documented (status : Int) (message : String) : Prop :=
  (status = -8 ∧ message = "TolX") ∨ (status = -7 ∧ message = "TolFun") ∨ (status = -6 ∧ message = "TolXUp") ∨
  (status = -5 ∧ message = "EqualFunValues") ∨ (status = -4 ∧ message = "ConditionCov") ∨
  (status = -3 ∧ message = "NoEffectCoord") ∨ (status = -2 ∧ message = "NoEffectAxis") ∨
  (status = -1 ∧ message = "maximum number of iterations is reached") ∨
  (status = 0 ∧ message = "best solution changes less than xtol") ∨
  (status = 1 ∧ message = "best solution value is lower than ftol")

/-- C01: the reported value is the objective at the reported point, which was evaluated. -/
def ReportsEvaluatedPoint (fn : Vec K n → Val K) (o : Output σ K p n) : Prop :=
  o.res.fval = fn o.res.x ∧ o.res.x ∈ o.evals

/-- C02: the reported value is a lower bound of all values seen (NaNs aside). -/
def BestOfRun (fn : Vec K n → Val K) (o : Output σ K p n) : Prop :=
  ∀ x ∈ o.evals, fn x ≠ .nan → o.res.fval ≤ fn x

/-- C03: the best value never gets worse from one callback to a later one, and the result is the last one. -/
def BestNeverWorsens (o : Output σ K p n) : Prop :=
  (o.cbs.map CB.fval).Pairwise NotWorse ∧ ∀ b, o.cbs.getLast? = some b → b.fval = o.res.fval

/-- C04: `nfev` counts the objective calls. -/
def CountsExact (o : Output σ K p n) : Prop :=
  o.res.nfev = o.evals.length ∧ o.res.nfev = p * o.res.nit ∧ ∀ b ∈ o.cbs, b.nfev = p * b.nit

/-- C09: callback protocol for a run with a callback. -/
def CallbackProtocol (o : Output σ K p n) : Prop :=
  o.cbs.length = o.res.nit ∧
  (∀ k b, o.cbs[k]? = some b → b.nit = k + 1 ∧ b.nfev = (k + 1) * p) ∧
  ∃ b, o.cbs.getLast? = some b ∧ b.x = o.res.x ∧ b.fval = o.res.fval ∧ b.nit = o.res.nit ∧ b.nfev = o.res.nfev ∧
    b.xall = o.res.xall ∧ b.funall = o.res.funall

/-- C10: shape of the history: `nit` entries of `m` solutions. -/
def HistoryShape (m : Nat) (o : Output σ K p n) : Prop :=
  ∃ xs fs, o.res.xall = some xs ∧ o.res.funall = some fs ∧ xs.length = o.res.nit ∧ fs.length = o.res.nit ∧
    (∀ r ∈ xs, r.length = m) ∧ (∀ r ∈ fs, r.length = m)

/-- C11–C13: every recorded value is the objective at the recorded point. -/
def HistoryMatches (fn : Vec K n → Val K) (o : Output σ K p n) : Prop :=
  ∀ xs fs, o.res.xall = some xs → o.res.funall = some fs →
    ∀ (k : Nat) (rx : List (Vec K n)) (rf : List (Val K)), xs[k]? = some rx → fs[k]? = some rf →
      rf = rx.map fn

/-- C06: status, message and success agree with the returned value (deferred updating). -/
structure StatusFaithful (maxiter : Int) (ftol : Val K) (o : Output σ K p n) : Prop where
  codes : o.res.status = 0 ∨ o.res.status = 1 ∨ o.res.status = -1
  success : o.res.success = true ↔ o.res.status = 0 ∨ o.res.status = 1
  reached : o.res.success = true ↔ o.res.fval ≤ ftol
  budget : o.res.status = -1 → maxiter ≤ o.res.nit
  message : Documented o.res.status o.res.message

/-- Euclidean distance at most `tol` (see `within_iff` for the norm over `ℝ`). -/
def Within (a b : Vec K n) (tol : K) : Prop := ArrayOps.normLe (fun j => a j - b j) tol = true

/-- C06: status 0 is given exactly when `ftol` is reached and the best point moved by at most `xtol` since the
previous callback. -/
def StatusZero (xtol : K) (ftol : Val K) (o : Output σ K p n) : Prop :=
  ∀ b, o.cbs[o.res.nit - 2]? = some b → (o.res.status = 0 ↔ o.res.fval ≤ ftol ∧ Within b.x o.res.x xtol)

/-- C07 (what is left of it with immediate updating). -/
structure StatusSound (maxiter : Int) (ftol : Val K) (o : Output σ K p n) : Prop where
  codes : o.res.status = 0 ∨ o.res.status = 1 ∨ o.res.status = -1
  success : o.res.success = true ↔ o.res.status = 0 ∨ o.res.status = 1
  reached : o.res.success = true → o.res.fval ≤ ftol
  budget : o.res.status = -1 → maxiter ≤ o.res.nit
  message : Documented o.res.status o.res.message

/-- The conditions under which the documentation promises deferred updating. -/
def Deferred (updating : String) (workers : Int) (backend : Option String) : Prop :=
  updating = "deferred" ∨ backend = some "mpi" ∨ (workers ≠ 0 ∧ workers ≠ 1)

end Stochopy.Spec
