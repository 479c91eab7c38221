import Verif.Spec.Report

/-!
# Vocabulary: a complete run of (competitive) particle swarm optimization

Kennedy and Eberhart, *Particle Swarm Optimization*; Luu et al., *A parallel competitive Particle Swarm Optimization*; with the order
in which random numbers are used, the stopping rules and the report.
-/

namespace Stochopy.Spec.PSO

variable {σ K : Type} [AddZeroClass K] [One K] [Sub K] [Mul K] [Div K] [Neg K] [NatCast K] [IntCast K] [Pow K ℕ] [ArrayOps K] [LinearOrder K] {p n : Nat}

/-- A problem and the parameters of the method. -/
structure Setting (σ K : Type) (n : Nat) where
  R : Rng σ K
  /-- how values are sorted (only ties are left open by `IsArgsort`) -/
  sort : Argsort K
  fn : Vec K n → Val K
  deferred : Prop
  inertia : K
  cognitivity : K
  sociability : K
  /-- restarts, if the competitivity is given and not zero -/
  competitivity : Option K
  /-- velocities are shortened at the bounds -/
  shrink : Prop
  lower : Vec K n
  upper : Vec K n
  maxiter : Int
  xtol : K
  ftol : Val K

/-- Positions and velocities of the particles; the pool holds the personal best points and their values. -/
structure Swarm (K : Type) (p n : Nat) where
  pos : Pop K p n
  vel : Pop K p n
  pool : Pool K p n

/-- The part `b` of the velocity `v` that is used at `x`: all of it if that keeps the bounds; otherwise the smallest part that leads to
one of the bounds that would be violated. -/
def Scale (lower upper x v : Vec K n) (b : K) : Prop :=
  (InBox lower upper (fun j => x j + v j) ∧ b = 1) ∨
  (¬ InBox lower upper (fun j => x j + v j) ∧
    IsLeast {t | ∃ j, (x j + v j < lower j ∧ t = (lower j - x j) / v j) ∨ (upper j < x j + v j ∧ t = (upper j - x j) / v j)} b)

/-- A particle at `x` with velocity `v` and personal best `pb` moves to `x'` with velocity `v'`, attracted by `pb` and by `leader`. -/
def Move (c : Setting σ K n) (x v pb leader r1 r2 x' v' : Vec K n) : Prop :=
  ∃ w : Vec K n, (∀ j, w j = c.inertia * v j + c.cognitivity * r1 j * (pb j - x j) + c.sociability * r2 j * (leader j - x j)) ∧
    (c.shrink → ∃ b, Scale c.lower c.upper x w b ∧ ∀ j, v' j = w j * b) ∧ (¬ c.shrink → ∀ j, v' j = w j) ∧ ∀ j, x' j = x j + v' j

/-- Deferred updating: all particles move, then the new positions are offered to the pool. -/
def DeferredGeneration (c : Setting σ K n) (s : Swarm K p n) (g : σ) (s' : Swarm K p n) (g' : σ) : Prop :=
  ∃ (r1 r2 : Pop K p n) (g1 : σ), (r1, g1) = drawMat c.R.rand p n g ∧ (r2, g') = drawMat c.R.rand p n g1 ∧
    (∀ i, Move c (s.pos i) (s.vel i) (s.pool.X i) s.pool.best (r1 i) (r2 i) (s'.pos i) (s'.vel i)) ∧
    Pool.OfferAll c.fn s.pool s'.pos s'.pool

/-- Immediate updating: particle `i` moves, and its new position is offered to the pool. -/
structure Turn (c : Setting σ K n) (r1 r2 : Vec K n) (i : Fin p) (s s' : Swarm K p n) : Prop where
  move : Move c (s.pos i) (s.vel i) (s.pool.X i) s.pool.best r1 r2 (s'.pos i) (s'.vel i)
  others : ∀ q, q ≠ i → s'.pos q = s.pos q ∧ s'.vel q = s.vel q
  offer : Pool.Offer c.fn s.pool i (s'.pos i) s'.pool

/-- Immediate updating: the particles move one after the other; the swarm is `T i` before particle `i` moves. -/
def ImmediateGeneration (c : Setting σ K n) (s : Swarm K p n) (g : σ) (s' : Swarm K p n) (g' : σ) (T : Nat → Swarm K p n) : Prop :=
  ∃ (r1 r2 : Pop K p n) (g1 : σ), (r1, g1) = drawMat c.R.rand p n g ∧ (r2, g') = drawMat c.R.rand p n g1 ∧ T 0 = s ∧ T p = s' ∧
    ∀ i : Fin p, Turn c (r1 i) (r2 i) i (T i) (T (i + 1))

/-- Generation `it` (the first swarm is generation 1), which ends with status `st`. -/
def Generation (c : Setting σ K n) (it : Nat) (s : Swarm K p n) (g : σ) (s' : Swarm K p n) (g' : σ) (st : Option Int) : Prop :=
  (c.deferred ∧ DeferredGeneration c s g s' g' ∧ FirstHolds (stopDeferred c.maxiter c.xtol c.ftol it s.pool s'.pool) st) ∨
  (¬ c.deferred ∧ ∃ T, ImmediateGeneration c s g s' g' T ∧ ∀ i : Fin p, i.val + 1 = p →
    FirstHolds (stopImmediate c.fn c.maxiter c.xtol c.ftol it (T i).pool i (s'.pos i)) st)

/-- The swarm before the first move. -/
structure First (fn : Vec K n → Val K) (X : Pop K p n) (s : Swarm K p n) : Prop where
  pos : s.pos = X
  vel : ∀ i j, s.vel i j = 0
  pool : Pool.First fn X s.pool

section
variable [IntParts K] [NumFns K]

/-- How far particle `i` is from the leader. -/
def away (s : Swarm K p n) (i : Fin p) : K := NumFns.sqrt (ArrayOps.sum fun j => (s.pos i j - s.pool.best j) ^ 2)

/-- `nw` particles are restarted at the end of generation `it`: the swarm has become small around its leader. -/
def Due (c : Setting σ K n) (it : Nat) (s : Swarm K p n) (nw : Nat) : Prop :=
  0 < nw ∧ ∃ γ, c.competitivity = some γ ∧ γ ≠ 0 ∧
    (∃ m, (∀ i, away s i ≤ away s m) ∧ away s m / NumFns.sqrt (4 * (n : K)) <
      NumFns.log (1 + 3 / 1000 * (p : K)) / max (2 / 10) (NumFns.log (1 / 100 * (c.maxiter : K)))) ∧
    (nw : Int) = pyInt (((p : K) - 1) / (1 + NumFns.exp (1 / (9 / 100) * ((it : K) / (c.maxiter : K) - γ + 1 / 2))))

/-- The restart of `nw` particles: those with the worst personal bests, the worst one first, get random positions. -/
structure Restarted (c : Setting σ K n) (nw : Nat) (s : Swarm K p n) (g : σ) (s' : Swarm K p n) (g' : σ) : Prop where
  leader : s'.pool.best = s.pool.best ∧ s'.pool.bestfit = s.pool.bestfit
  kept : ∀ (k q : Fin p), c.sort p s.pool.fit k = q → k.val + nw < p →
    s'.pos q = s.pos q ∧ s'.vel q = s.vel q ∧ s'.pool.X q = s.pool.X q ∧ s'.pool.fit q = s.pool.fit q
  fresh : ∀ (k q : Fin p) (t : Fin nw), c.sort p s.pool.fit k = q → k.val + t.val + 1 = p →
    (∀ j, s'.pos q j = c.lower j + (c.upper j - c.lower j) * (drawMat c.R.rand nw n g).1 t j) ∧
    (∀ j, s'.vel q j = 0) ∧ s'.pool.X q = s'.pos q ∧ s'.pool.fit q = .fin (10 ^ 30)
  rng : g' = (drawMat c.R.rand nw n g).2

/-- The output `o` of a run from generator state `g`: after generation `k` (counted from 0, the first population) the swarm is `S k` and
the generator is in state `gs k`; `M k` and `hs k` are the same after restarts. -/
structure Run (c : Setting σ K n) (x0 : Option (Pop K p n)) (g : σ) (rep : Reporting) (S M : Nat → Swarm K p n) (gs hs : Nat → σ)
    (nit : Nat) (status : Int) (o : Output σ K p n) : Prop where
  start : ∃ X, FirstPopulation c.R x0 c.lower c.upper g (gs 0) X ∧ First c.fn X (S 0)
  size : 2 ≤ p
  atleast : 2 ≤ nit
  restart : ∀ k nw, 0 < k → k + 1 < nit → Due c (k + 1) (S k) nw → Restarted c nw (S k) (gs k) (M k) (hs k)
  norestart : ∀ k, k + 1 < nit → k = 0 ∨ (∀ nw, ¬ Due c (k + 1) (S k) nw) → M k = S k ∧ hs k = gs k
  generation : ∀ k, k + 1 < nit → Generation c (k + 2) (M k) (hs k) (S (k + 1)) (gs (k + 1)) (if k + 2 = nit then some status else none)
  evaluated : o.evals = (List.range nit).flatMap fun k => List.ofFn (S k).pos
  report : Reports rep (S 0).pool.best (fun k => (S k).pool.best) (fun k => (S k).pool.bestfit) (fun k => (S k).pos) (fun k => (S k).pos)
    (fun k i => c.fn ((S k).pos i)) nit status o
  /-- with immediate updating the array that was given as `x0` holds the last positions (see C30) -/
  given : (c.deferred → o.x0After = x0) ∧ (¬ c.deferred → o.x0After = x0.map fun _ => (S (nit - 1)).pos)
  rng : o.rng = gs (nit - 1)

end

end Stochopy.Spec.PSO
