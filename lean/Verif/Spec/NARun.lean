import Verif.Spec.Report
import Mathlib.Algebra.BigOperators.Group.Finset.Basic
import Mathlib.Order.Bounds.Basic

/-!
# Vocabulary: runs of the neighbourhood algorithm

The algorithm of Sambridge (1999) in the coordinates of the unit cube.
-/

namespace Stochopy.Spec.NA
variable {σ K : Type} [Field K] [LinearOrder K] {p n : Nat}

/-- The problem and the settings of a run; `R` is the generator, `sort` the sorting routine. -/
structure Setting (σ K : Type) (n : Nat) where
  R : Rng σ K
  sort : Argsort K
  fn : Vec K n → Val K
  /-- number of good models -/
  nr : Nat
  lower : Vec K n
  upper : Vec K n
  maxiter : Int
  xtol : K
  ftol : Val K

/-- The point of the box that belongs to a point of the unit cube. -/
def Setting.place (c : Setting σ K n) (x : Vec K n) : Vec K n := fun j => c.lower j + (c.upper j - c.lower j) * x j

/-- The objective on the unit cube. -/
def Setting.f (c : Setting σ K n) (x : Vec K n) : Val K := c.fn (c.place x)

/-- Squared distance. -/
def sqDist (x y : Vec K n) : K := ∑ l, (x l - y l) ^ 2

/-- All models, the latest generation and the selection. -/
structure Search (K : Type) (p n : Nat) where
  models : List (Vec K n)
  pos : Pop K p n
  pool : Pool K p n

/-- The line through `x` along coordinate `j` crosses, at `t`, the bisector between `v` and another model. -/
def Crossing (models : List (Vec K n)) (v x : Vec K n) (j : Fin n) (t : K) : Prop :=
  ∃ u ∈ models, u j ≠ v j ∧ sqDist (Function.update x j t) u = sqDist (Function.update x j t) v

/-- From `x` one can go along coordinate `j` down to `a` and up to `b` without crossing a bisector or leaving the cube. -/
def Reach (models : List (Vec K n)) (v x : Vec K n) (j : Fin n) (a b : K) : Prop :=
  IsGreatest {t | t ≤ x j ∧ (t = 0 ∨ Crossing models v x j t)} a ∧ IsLeast {t | x j ≤ t ∧ (t = 1 ∨ Crossing models v x j t)} b

/-- The random walk from `v` to `y`: one step along every coordinate, uniformly distributed in its reach. -/
def Walk (R : Rng σ K) (models : List (Vec K n)) (v : Vec K n) (g : σ) (y : Vec K n) (g' : σ) : Prop :=
  ∃ T : Nat → Vec K n × σ, T 0 = (v, g) ∧ T n = (y, g') ∧ ∀ j : Fin n, ∃ a b, Reach models v (T j).1 j a b ∧
    T (j + 1) = (Function.update (T j).1 j (a + (b - a) * (R.rand (T j).2).1), (R.rand (T j).2).2)

/-- `v` is number `r` (counted from 0) of the models sorted by `f`. -/
def Ranked (sort : Argsort K) (f : Vec K n → Val K) (models : List (Vec K n)) (r : Nat) (v : Vec K n) : Prop :=
  ∃ h : r < models.length, v = models.get (sort models.length (fun k => f (models.get k)) ⟨r, h⟩)

/-- Generation `it` (the first population is generation 1), which ends with status `st`: the walks start at the `nr` best of all models,
in turn. -/
structure Generation (c : Setting σ K n) (it : Nat) (s : Search K p n) (g : σ) (s' : Search K p n) (g' : σ) (st : Option Int) : Prop where
  walks : ∃ G : Nat → σ, G 0 = g ∧ G p = g' ∧ ∀ i : Fin p, ∃ v, Ranked c.sort c.f s.models (i % c.nr) v ∧
    Walk c.R s.models v (G i) (s'.pos i) (G (i + 1))
  models : s'.models = List.ofFn s'.pos ++ s.models
  pool : Pool.OfferAll c.f s.pool s'.pos s'.pool
  stop : FirstHolds (stopDeferred c.maxiter c.xtol c.ftol it s.pool s'.pool) st

/-- The output `o` of a run from generator state `g`: after generation `k` (counted from 0, the first population) the search is in state
`S k` and the generator in state `gs k`. -/
structure Run (c : Setting σ K n) (x0 : Option (Pop K p n)) (g : σ) (rep : Reporting) (S : Nat → Search K p n) (gs : Nat → σ)
    (nit : Nat) (status : Int) (o : Output σ K p n) : Prop where
  start : ∃ X, FirstPopulation c.R x0 c.lower c.upper g (gs 0) X ∧ ∀ i j, (S 0).pos i j = (X i j - c.lower j) / (c.upper j - c.lower j)
  first : Pool.First c.f (S 0).pos (S 0).pool
  models : (S 0).models = List.ofFn (S 0).pos
  size : 2 ≤ p
  atleast : 2 ≤ nit
  generation : ∀ k, k + 1 < nit → Generation c (k + 2) (S k) (gs k) (S (k + 1)) (gs (k + 1)) (if k + 2 = nit then some status else none)
  evaluated : o.evals = (List.range nit).flatMap fun k => List.ofFn fun i => c.place ((S k).pos i)
  /-- the first population is recorded in the coordinates of the unit cube (see C13) -/
  report : Reports rep (S 0).pool.best (fun k => c.place (S k).pool.best) (fun k => (S k).pool.bestfit) (fun k i => c.place ((S k).pos i))
    (fun k i => if k = 0 then (S k).pos i else c.place ((S k).pos i)) (fun k i => c.f ((S k).pos i)) nit status o
  given : o.x0After = x0
  rng : o.rng = gs (nit - 1)

end Stochopy.Spec.NA
