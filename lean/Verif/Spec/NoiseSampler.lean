import Verif.Spec.Noise
import Verif.Spec.Sampler

/-!
# Vocabulary for samplers whose objective has noise or state (C108)

`ans k x` is the answer to the `k`-th request of the run when the point asked for is `x`.
-/

namespace Stochopy.Spec
open Sampling

variable {σ K : Type} [Zero K] [One K] [Add K] [Sub K] [Mul K] [Div K] [Neg K] [NatCast K] [IntCast K] [Pow K ℕ] [ArrayOps K] [LinearOrder K] [NumFns K] {n : Nat}

/-- `v` is the answer the objective gave when it was asked for `x`. -/
def Replied (ans : Nat → Vec (Val K) n → Val K) (evals : List (Vec (Val K) n)) (x : Vec (Val K) n) (v : Val K) : Prop :=
  ∃ k, evals[k]? = some x ∧ v = ans k x

/-- `x` and `v` stand in the same row of the arrays of samples and values. -/
def Recorded (xs : List (Vec (Val K) n)) (fs : List (Val K)) (x : Vec (Val K) n) (v : Val K) : Prop :=
  ∃ k : Nat, xs[k]? = some x ∧ fs[k]? = some v

/-- What `sample` reports about the answers it got, samples `xs` and values `fs`: every row is a point that was asked for with the
answer given then, and the callbacks show such rows. -/
structure RowsReported (ans : Nat → Vec (Val K) n → Val K) (xs : List (Vec (Val K) n)) (fs : List (Val K)) (o : Sampling.Output σ K n) : Prop where
  rows : xs.length = fs.length
  length : (xs.length : Int) = o.nit
  replies : ∀ x v, Recorded xs fs x v → Replied ans o.evals x v
  callbacks : ∀ c ∈ o.cbs, Recorded xs fs c.x c.fval
  all : ∀ ys, o.xall = some ys → ys = xs
  funall : ∀ vs, o.funall = some vs → vs = fs

/-- The chain of pairs of a point and the answer for it made by 'mcmc': the `k`-th proposal is request `k + 1`, and the test compares
its answer with the one recorded for the current sample. -/
structure NoisyMcmcRun {K : Type} [Field K] [LinearOrder K] [NumFns K] [FloorRing K] (R : Rng σ K) (a : MCMC.Args K) (g : σ)
    (ans : Nat → Vec (Val K) a.ndim → Val K) (evals : List (Vec (Val K) a.ndim)) (rows : List (Vec (Val K) a.ndim × Val K))
    (ms : List (Move (Vec (Val K) a.ndim × Val K))) : Prop where
  links : Links rows ms
  length : (rows.length : Int) = a.maxiter
  first : ∀ r, rows[0]? = some r → FirstSample R a.toArgs g r.1 ∧ evals[0]? = some r.1 ∧ r.2 = ans 0 r.1
  proposal : ∀ k m, ms[k]? = some m →
    PerturbsBlock R
      (genAt R (blockSize a.perc a.ndim) (!decide (a.constraints = some "Reject")) (genStart R a.toArgs g) k)
      (scaleOf a.toArgs) (blockSize a.perc a.ndim) (k % blockCount a.ndim (blockSize a.perc a.ndim)) m.old.1 m.prop.1
  request : a.constraints ≠ some "Reject" → evals.length = rows.length ∧ ∀ k m, ms[k]? = some m →
    evals[k + 1]? = some m.prop.1 ∧ m.prop.2 = ans (k + 1) m.prop.1
  test : ∀ k m, ms[k]? = some m →
    (m.accepted = true ↔ a.constraints ≠ some "Reject" ∧ Accepts (m.old.2 - m.prop.2)
      (uniform R
        (genAt R (blockSize a.perc a.ndim) (!decide (a.constraints = some "Reject")) (genStart R a.toArgs g) k)
        (blockSize a.perc a.ndim)))

end Stochopy.Spec
