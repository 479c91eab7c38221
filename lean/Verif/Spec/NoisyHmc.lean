import Verif.Spec.NoiseSampler

/-!
# Hamiltonian dynamics with a noisy objective

`φ k x` is the answer to request number `k`, at the point `x`.
-/

namespace Stochopy.Spec
variable {K σ : Type} [Field K] [LinearOrder K] [NumFns K] {n : Nat}

/-- Central differences: the difference in direction `j` is between the answers to the requests `k + 2 j` and `k + 2 j + 1`. -/
def noisyGradient (φ : Nat → Vec K n → K) (k : Nat) (h : K) (x : Vec K n) : Vec K n := fun j =>
  (φ (k + 2 * j) (Function.update x j (x j + h)) - φ (k + 2 * j + 1) (Function.update x j (x j - h))) / (2 * h)

/-- The leap-frog scheme with gradient `γ l` at its `l`-th evaluation: position after `l` position steps, momentum half a step later. -/
def noisyLeap (γ : Nat → Vec K n → Vec K n) (ε : Vec K n) (z : Vec K n × Vec K n) : Nat → Vec K n × Vec K n
  | 0 => (z.1, fun j => z.2 j - ε j / 2 * γ 0 z.1 j)
  | l + 1 =>
    let w := noisyLeap γ ε z l
    let q := fun j => w.1 j + ε j * w.2 j
    (q, fun j => w.2 j - ε j * γ (l + 1) q j)

/-- Position and momentum after `L + 1` steps. -/
def noisyLeapfrog (γ : Nat → Vec K n → Vec K n) (ε : Vec K n) (L : Nat) (z : Vec K n × Vec K n) : Vec K n × Vec K n :=
  let w := noisyLeap γ ε z L
  let q := fun j => w.1 j + ε j * w.2 j
  (q, fun j => w.2 j - ε j / 2 * γ (L + 1) q j)

/-- The kinetic energy. -/
def kineticEnergy (p : Vec K n) : K := (∑ j, p j ^ 2) / 2

/-- The requests made before iteration `k` of 'hmc'. -/
def requestsBefore (a : HMC.Args K) (k : Nat) : Nat :=
  1 + k * (2 * a.ndim * (a.nleap.toNat + 2) + if a.constraints = some "Reject" then 0 else 2)

/-- Samples with the answers for them, and the moves, of a completed 'hmc' chain. -/
structure NoisyHmcRun (R : Rng σ K) (a : HMC.Args K) (g : σ) (φ : Nat → Vec K a.ndim → K) (rows : List (Vec K a.ndim × K))
    (ms : List (Move (Vec K a.ndim × K))) : Prop where
  links : Links rows ms
  length : (rows.length : Int) = a.maxiter
  first : ∀ r, rows[0]? = some r → FirstSample R a.toArgs g (point r.1) ∧ r.2 = φ 0 r.1
  proposal : ∀ k m, ms[k]? = some m →
    let gk := genAt R a.ndim (!decide (a.constraints = some "Reject")) (genStart R a.toArgs g) k
    let r := requestsBefore a k
    let z : Vec K a.ndim × Vec K a.ndim := (m.old.1, fun j => normal R gk j)
    let z' := noisyLeapfrog (fun l => noisyGradient φ (r + 2 * a.ndim * l) a.fdStep) (scaleOf a.toArgs) a.nleap.toNat z
    let e := r + 2 * a.ndim * (a.nleap.toNat + 2)
    m.prop.1 = z'.1 ∧ (a.constraints ≠ some "Reject" → m.prop.2 = φ (e + 1) z'.1) ∧
      (m.accepted = true ↔ a.constraints ≠ some "Reject" ∧
        Accepts (.fin (φ e z.1 + kineticEnergy z.2 - (φ (e + 1) z'.1 + kineticEnergy z'.2))) (uniform R gk a.ndim))

end Stochopy.Spec
