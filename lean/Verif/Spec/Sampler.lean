import Verif.Spec.Chain
import Verif.Model.MCMC
import Verif.Model.HMC

/-!
# Vocabulary: proposals of the samplers and valid calls
-/

namespace Stochopy.Spec
open Sampling

variable {K σ : Type} [Zero K] [One K] [Add K] [Sub K] [Mul K] [Div K] [Neg K] [NatCast K] [IntCast K] [Pow K ℕ] [ArrayOps K] [LinearOrder K] [NumFns K]

/-- Entry `j` of the `stepsize` argument as the caller wrote it. -/
def stepEntry : StepArg K → Nat → K
  | .scalar _ k, _ => k
  | .seq _ v, j => v.getD j 0

/-- Standard deviation of the perturbation of coordinate `c`: a fraction of half the width of the search space. -/
def scaleOf (a : Sampling.Args K) (c : Fin a.ndim) : K :=
  stepEntry a.stepsize c * ((a.bounds.get [c, 1] - a.bounds.get [c, 0]) / 2)

/-- The number of coordinates perturbed per iteration. -/
def blockSize {K : Type} [Field K] [LinearOrder K] [FloorRing K] (perc : K) (n : Nat) : Nat := max 1 ⌊perc * n⌋₊

/-- The number of blocks needed to cover `n` coordinates. -/
def blockCount (n per : Nat) : Nat := (n + per - 1) / per

/-- `prop` is `old` with every coordinate of block number `b` moved by a scaled normal draw, in order. -/
def PerturbsBlock {n : Nat} (R : Rng σ K) (g : σ) (scale : Fin n → K) (per b : Nat) (old prop : Vec (Val K) n) : Prop :=
  ∀ c : Fin n, prop c = if c.val / per = b then old c + .fin (normal R g (c.val % per) * scale c) else old c

/-- The values of a valid `stepsize` argument. -/
def ValidStep (n : Nat) : StepArg K → Prop
  | .scalar isInt _ => isInt = false
  | .seq kind v => v.length = n ∧ kind ≠ .intArray

/-- The shapes of a valid initial sample. -/
def ValidX0 (n : Nat) (x : NdArr K) : Prop := x.shape = [n] ∨ (n = 1 ∧ x.shape ≠ [] ∧ ∀ d ∈ x.shape, d = 1)

/-- Valid arguments as far as the samplers agree. -/
structure ValidSampler (a : Sampling.Args K) : Prop where
  objective : a.fn.isSome
  bounds : a.bounds.shape = [a.bounds.len, 2]
  x0 : ∀ x, a.x0 = some x → ValidX0 a.bounds.len x
  stepsize : ValidStep a.bounds.len a.stepsize
  callback : a.callback ≠ some false
  maxiter : 1 ≤ a.maxiter

/-- Valid arguments for 'hmc' (without a gradient). -/
structure ValidHMC (a : HMC.Args K) : Prop extends ValidSampler a.toArgs where
  nleap : 1 ≤ a.nleap
  jac : a.jac ≠ some none

/-- Valid arguments for 'mcmc'. -/
structure ValidMCMC (a : MCMC.Args K) : Prop extends ValidSampler a.toArgs where
  perc : 0 ≤ a.perc ∧ a.perc ≤ 1

/-- The acceptance test with the uniform number `u`, as a function of the drop of the energy.  (The NaN row is what the
code does, not what it should do.) -/
def Accepts (drop : Val K) (u : K) : Prop :=
  match drop with
  | .nan => True
  | .pinf => True
  | .ninf => False
  | .fin d => 0 ≤ d ∨ u = 0 ∨ NumFns.log u < d

/-- The generator when the first sample has been chosen: seeded, and advanced by one uniform number per coordinate unless
the sample was given. -/
def genStart (R : Rng σ K) (a : Sampling.Args K) (g : σ) : σ :=
  let g1 := match a.seed with
    | some s => R.seed s
    | none => g
  match a.x0 with
  | some _ => g1
  | none => (fun g => (R.rand g).2)^[a.ndim] g1

/-- The first sample of a chain. -/
def FirstSample (R : Rng σ K) (a : Sampling.Args K) (g : σ) (x : Vec (Val K) a.ndim) : Prop :=
  match a.x0 with
  | some x0 => x0.shape = [a.ndim] → x = fun j => .fin (x0.get [j])
  | none =>
    let g1 := match a.seed with
      | some s => R.seed s
      | none => g
    x = fun j => .fin (a.bounds.get [j, 0] +
      (a.bounds.get [j, 1] - a.bounds.get [j, 0]) * (R.rand ((fun g => (R.rand g).2)^[j.val] g1)).1)

/-- The samples and moves of a completed 'mcmc' chain. -/
structure McmcRun {K : Type} [Field K] [LinearOrder K] [NumFns K] [FloorRing K] (R : Rng σ K) (a : MCMC.Args K) (g : σ) (fn : Vec (Val K) a.ndim → Val K)
    (xs : List (Vec (Val K) a.ndim)) (ms : List (Move (Vec (Val K) a.ndim))) : Prop where
  links : Links xs ms
  length : (xs.length : Int) = a.maxiter
  first : ∀ x, xs[0]? = some x → FirstSample R a.toArgs g x
  proposal : ∀ k m, ms[k]? = some m →
    PerturbsBlock R
      (genAt R (blockSize a.perc a.ndim) (!decide (a.constraints = some "Reject")) (genStart R a.toArgs g) k)
      (scaleOf a.toArgs) (blockSize a.perc a.ndim) (k % blockCount a.ndim (blockSize a.perc a.ndim)) m.old m.prop
  test : ∀ k m, ms[k]? = some m →
    (m.accepted = true ↔ a.constraints ≠ some "Reject" ∧ Accepts (fn m.old - fn m.prop)
      (uniform R
        (genAt R (blockSize a.perc a.ndim) (!decide (a.constraints = some "Reject")) (genStart R a.toArgs g) k)
        (blockSize a.perc a.ndim)))

/-! ## Hamiltonian dynamics -/

/-- One leap-frog step (velocity Verlet) with step sizes `ε`: half a momentum step, a position step, half a momentum
step. -/
def verlet {n : Nat} (γ : Vec K n → Vec K n) (ε : Vec K n) (z : Vec K n × Vec K n) : Vec K n × Vec K n :=
  let p := fun j => z.2 j - ε j / 2 * γ z.1 j
  let q := fun j => z.1 j + ε j * p j
  (q, fun j => p j - ε j / 2 * γ q j)

/-- Central differences. -/
def centralGradient {n : Nat} (φ : Vec K n → K) (h : K) (x : Vec K n) : Vec K n := fun j =>
  (φ (Function.update x j (x j + h)) - φ (Function.update x j (x j - h))) / (2 * h)

/-- Potential plus kinetic energy. -/
def hamiltonian {K : Type} [Field K] {n : Nat} (φ : Vec K n → K) (z : Vec K n × Vec K n) : K := φ z.1 + (∑ j, z.2 j ^ 2) / 2

/-- A point with finite coordinates. -/
def point {n : Nat} (x : Vec K n) : Vec (Val K) n := fun j => .fin (x j)

/-- The samples and moves of a completed 'hmc' chain, for an objective with finite values `φ`: the proposal is the
position reached after `steps` leap-frog steps from a normal momentum. -/
structure HmcRun {K : Type} [Field K] [LinearOrder K] [NumFns K] (R : Rng σ K) (a : HMC.Args K) (g : σ) (φ : Vec K a.ndim → K) (steps : Nat)
    (qs : List (Vec K a.ndim)) (ms : List (Move (Vec K a.ndim))) : Prop where
  links : Links qs ms
  length : (qs.length : Int) = a.maxiter
  first : ∀ q, qs[0]? = some q → FirstSample R a.toArgs g (point q)
  proposal : ∀ k m, ms[k]? = some m →
    let gk := genAt R a.ndim (!decide (a.constraints = some "Reject")) (genStart R a.toArgs g) k
    let z : Vec K a.ndim × Vec K a.ndim := (m.old, fun j => normal R gk j)
    let z' := (verlet (centralGradient φ a.fdStep) (scaleOf a.toArgs))^[steps] z
    m.prop = z'.1 ∧
      (m.accepted = true ↔ a.constraints ≠ some "Reject" ∧
        Accepts (.fin (hamiltonian φ z - hamiltonian φ z')) (uniform R gk a.ndim))

end Stochopy.Spec
