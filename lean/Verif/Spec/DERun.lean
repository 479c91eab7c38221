import Verif.Spec.Report

/-!
# Vocabulary: a complete run of differential evolution

Storn and Price, *Differential Evolution*, with the order in which random numbers are used, the stopping rules and the report.
-/

namespace Stochopy.Spec.DE

variable {σ K : Type} [AddZeroClass K] [One K] [Sub K] [Mul K] [Div K] [Neg K] [NatCast K] [IntCast K] [Pow K ℕ] [ArrayOps K] [LinearOrder K] {p n : Nat}

/-- A problem and the parameters of the method. -/
structure Setting (σ K : Type) (n : Nat) where
  R : Rng σ K
  fn : Vec K n → Val K
  deferred : Prop
  strategy : String
  F : K
  CR : K
  /-- components that violate the bounds are drawn again -/
  redraw : Prop
  lower : Vec K n
  upper : Vec K n
  maxiter : Int
  xtol : K
  ftol : Val K

/-- `e` lists the individuals other than `i` in order. -/
def Others (i : Fin p) (e : Fin (p - 1) → Fin p) : Prop := StrictMono e ∧ ∀ k, e k ≠ i

/-- Mutation: `v` is made from the best point and the first individuals of the list `l`. -/
def Mutation (strategy : String) (F : K) (l : List (Fin p)) (X : Pop K p n) (best v : Vec K n) : Prop :=
  (strategy = "rand1bin" ∧ ∃ a b c, [a, b, c] <+: l ∧ ∀ j, v j = X a j + F * (X b j - X c j)) ∨
  (strategy = "rand2bin" ∧ ∃ a b c d e, [a, b, c, d, e] <+: l ∧ ∀ j, v j = X a j + F * (X b j + X c j - X d j - X e j)) ∨
  (strategy = "best1bin" ∧ ∃ a b, [a, b] <+: l ∧ ∀ j, v j = best j + F * (X a j - X b j)) ∨
  (strategy = "best2bin" ∧ ∃ a b c d, [a, b, c, d] <+: l ∧ ∀ j, v j = best j + F * (X a j + X b j - X c j - X d j))

/-- The trial vector `y` of individual `i`: donors are the other individuals in the order `π`; component `ι`, and each other one with
`r j ≤ CR`, comes from the mutant; `u` is used for the components outside the bounds. -/
def Trial (c : Setting σ K n) (i : Fin p) (X : Pop K p n) (best : Vec K n) (π : Equiv.Perm (Fin (p - 1))) (ι : Nat) (r u : Vec K n)
    (y : Vec K n) : Prop :=
  ∃ (e : Fin (p - 1) → Fin p) (v w : Vec K n), Others i e ∧ Mutation c.strategy c.F (List.ofFn fun k => e (π k)) X best v ∧
    (∀ j, (j.val = ι ∨ r j ≤ c.CR → w j = v j) ∧ (¬ (j.val = ι ∨ r j ≤ c.CR) → w j = X i j)) ∧
    ∀ j, (c.redraw ∧ ¬ (c.lower j ≤ w j ∧ w j ≤ c.upper j) → y j = c.lower j + (c.upper j - c.lower j) * u j) ∧
      (¬ (c.redraw ∧ ¬ (c.lower j ≤ w j ∧ w j ≤ c.upper j)) → y j = w j)

/-- A generation with deferred updating: trial vectors `ys` are made from the pool `s` and offered all at once. -/
def DeferredGeneration (c : Setting σ K n) (s : Pool K p n) (g : σ) (ys : Pop K p n) (s' : Pool K p n) (g' : σ) : Prop :=
  ∃ (r u : Pop K p n) (π : Fin p → Equiv.Perm (Fin (p - 1))) (ι : Fin p → Nat) (g1 g2 g3 : σ),
    (r, g1) = drawMat c.R.rand p n g ∧ (π, g2) = drawVec (c.R.perm (p - 1)) p g1 ∧ (ι, g3) = drawVec (c.R.randint n) p g2 ∧
    (c.redraw → (u, g') = drawMat c.R.rand p n g3) ∧ (¬ c.redraw → g' = g3) ∧
    (∀ i, Trial c i s.X s.best (π i) (ι i) (r i) (u i) (ys i)) ∧ Pool.OfferAll c.fn s ys s'

/-- Immediate updating: the trial vector `y` of individual `i` is made from the pool `s` and offered. -/
def Turn (c : Setting σ K n) (r : Vec K n) (i : Fin p) (s : Pool K p n) (g : σ) (y : Vec K n) (s' : Pool K p n) (g' : σ) : Prop :=
  ∃ (u : Vec K n) (π : Equiv.Perm (Fin (p - 1))) (ι : Nat) (g1 g2 : σ),
    (π, g1) = c.R.perm (p - 1) g ∧ (ι, g2) = c.R.randint n g1 ∧
    (c.redraw → (u, g') = drawVec c.R.rand n g2) ∧ (¬ c.redraw → g' = g2) ∧
    Trial c i s.X s.best π ι r u y ∧ Pool.Offer c.fn s i y s'

/-- A generation with immediate updating: the individuals take their turns one after the other; the pool is `T i` before the turn of
individual `i`. -/
def ImmediateGeneration (c : Setting σ K n) (s : Pool K p n) (g : σ) (ys : Pop K p n) (s' : Pool K p n) (g' : σ)
    (T : Nat → Pool K p n) : Prop :=
  ∃ (r : Pop K p n) (G : Nat → σ), (r, G 0) = drawMat c.R.rand p n g ∧ T 0 = s ∧ T p = s' ∧ G p = g' ∧
    ∀ i : Fin p, Turn c (r i) i (T i) (G i) (ys i) (T (i + 1)) (G (i + 1))

/-- Generation `it` (the first population is generation 1), which ends with status `st`. -/
def Generation (c : Setting σ K n) (it : Nat) (s : Pool K p n) (g : σ) (ys : Pop K p n) (s' : Pool K p n) (g' : σ) (st : Option Int) :
    Prop :=
  (c.deferred ∧ DeferredGeneration c s g ys s' g' ∧ FirstHolds (stopDeferred c.maxiter c.xtol c.ftol it s s') st) ∨
  (¬ c.deferred ∧ ∃ T, ImmediateGeneration c s g ys s' g' T ∧ ∀ i : Fin p, i.val + 1 = p →
    FirstHolds (stopImmediate c.fn c.maxiter c.xtol c.ftol it (T i) i (ys i)) st)

/-- The output `o` of a run from generator state `g`: after generation `k` (counted from 0, the first population) the pool is `S k`
and the generator is in state `gs k`; the points that were evaluated in the generation are `ys k`. -/
structure Run (c : Setting σ K n) (x0 : Option (Pop K p n)) (g : σ) (rep : Reporting) (S : Nat → Pool K p n) (gs : Nat → σ)
    (ys : Nat → Pop K p n) (nit : Nat) (status : Int) (o : Output σ K p n) : Prop where
  start : FirstPopulation c.R x0 c.lower c.upper g (gs 0) (ys 0)
  first : Pool.First c.fn (ys 0) (S 0)
  size : 2 ≤ p
  atleast : 2 ≤ nit
  generation : ∀ k, k + 1 < nit →
    Generation c (k + 2) (S k) (gs k) (ys (k + 1)) (S (k + 1)) (gs (k + 1)) (if k + 2 = nit then some status else none)
  evaluated : o.evals = (List.range nit).flatMap fun k => List.ofFn (ys k)
  report : Reports rep (S 0).best (fun k => (S k).best) (fun k => (S k).bestfit) (fun k => (S k).X) (fun k => (S k).X)
    (fun k i => c.fn (ys k i)) nit status o
  /-- the array that was given as `x0` holds the last population (see C30) -/
  given : o.x0After = x0.map fun _ => (S (nit - 1)).X
  rng : o.rng = gs (nit - 1)

end Stochopy.Spec.DE
