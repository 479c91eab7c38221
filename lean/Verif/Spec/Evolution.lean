import Verif.Spec.Box

/-!
# Vocabulary: one generation of differential evolution and of particle swarm optimisation

Textbook descriptions in terms of populations and points only.
-/

namespace Stochopy.Spec

variable {K : Type} [AddZeroClass K] [One K] [Sub K] [Mul K] [Div K] [Neg K] [NatCast K] [IntCast K] [Pow K ℕ] [ArrayOps K] [LinearOrder K] {p n : Nat}

/-- `v` is a mutant of individual `i` by the named strategy: donors are distinct and differ from `i`. -/
def Mutant (strategy : String) (F : K) (i : Fin p) (X : Pop K p n) (best v : Vec K n) : Prop :=
  (strategy = "rand1bin" ∧ ∃ a b c : Fin p, [i, a, b, c].Nodup ∧ ∀ j, v j = X a j + F * (X b j - X c j)) ∨
  (strategy = "rand2bin" ∧ ∃ a b c d e : Fin p, [i, a, b, c, d, e].Nodup ∧
    ∀ j, v j = X a j + F * (X b j + X c j - X d j - X e j)) ∨
  (strategy = "best1bin" ∧ ∃ a b : Fin p, [i, a, b].Nodup ∧ ∀ j, v j = best j + F * (X a j - X b j)) ∨
  (strategy = "best2bin" ∧ ∃ a b c d : Fin p, [i, a, b, c, d].Nodup ∧
    ∀ j, v j = best j + F * (X a j + X b j - X c j - X d j))

/-- The number of individuals a strategy needs. -/
def needed (strategy : String) : Nat :=
  if strategy = "rand1bin" then 4 else if strategy = "rand2bin" then 6 else if strategy = "best1bin" then 3 else 5

/-- `u` is a binomial crossover of parent `x` and mutant `v`. -/
def Binomial (CR : K) (x v u : Vec K n) : Prop :=
  (∀ j, u j = x j ∨ u j = v j) ∧ (∃ j, u j = v j) ∧ (CR = 1 → u = v)

/-- `u'` is `u` after constraint handling. -/
def Repaired (constraints : Option String) (lower upper u u' : Vec K n) : Prop :=
  (constraints = none ∧ u' = u) ∨
  (constraints = some "Random" ∧ ∀ j, (lower j ≤ u j ∧ u j ≤ upper j → u' j = u j) ∧
    (¬ (lower j ≤ u j ∧ u j ≤ upper j) → lower j ≤ u' j ∧ u' j ≤ upper j))

/-- The population individual `i` sees: the previous generation with deferred updating; with immediate updating the
individuals before `i` have already been replaced. -/
def seen (deferred : Bool) (X X' : Pop K p n) (i : Fin p) : Pop K p n :=
  if deferred then X else fun q => if q < i then X' q else X q

/-- When a candidate with value `a` replaces one with value `b`: ties are only accepted with immediate updating. -/
def Improves (deferred : Bool) (a b : Val K) : Prop := if deferred then a < b else a ≤ b

/-- The best point known after the first `m` candidates `ys` of a generation with immediate updating: it is the best
point of the previous generation or one of these candidates that is at least as good, and none of the candidates
that were good enough for their individual is better. -/
def Leader (fn : Vec K n → Val K) (best : Vec K n) (bestfit : Val K) (fit : Fin p → Val K) (ys : Pop K p n) (m : Nat)
    (y : Vec K n) (c : Val K) : Prop :=
  ((y = best ∧ c = bestfit) ∨ ∃ i : Fin p, i.val < m ∧ y = ys i ∧ c = fn y ∧ c ≤ bestfit) ∧
  ∀ i : Fin p, i.val < m → fn (ys i) ≤ fit i → ¬ fn (ys i) < c

/-- One generation of differential evolution: from population `X` with best point `best`, through trial vectors `ys`, to
population `X'` with best point `best'`. -/
structure DEGeneration (fn : Vec K n → Val K) (deferred : Bool) (strategy : String) (F CR : K)
    (constraints : Option String) (lower upper : Vec K n) (X X' : Pop K p n) (best best' : Vec K n) (ys : Pop K p n) :
    Prop where
  trial : ∀ i : Fin p, ∃ y v u, (if deferred then y = best else Leader fn best (fn best) (fun q => fn (X q)) ys i y (fn y)) ∧
    Mutant strategy F i (seen deferred X X' i) y v ∧ Binomial CR (X i) v u ∧ Repaired constraints lower upper u (ys i)
  select : ∀ i, (Improves deferred (fn (ys i)) (fn (X i)) ∧ X' i = ys i) ∨
    (¬ Improves deferred (fn (ys i)) (fn (X i)) ∧ X' i = X i)
  best : if deferred then ∃ i, best' = X' i ∧ ∀ q, ¬ fn (X' q) < fn best'
    else Leader fn best (fn best) (fun q => fn (X q)) ys p best' (fn best')

/-- A particle swarm: positions, velocities, personal best positions and values, global best position and value. -/
structure Swarm (K : Type) (p n : Nat) where
  X : Pop K p n
  V : Pop K p n
  pbest : Pop K p n
  fit : Fin p → Val K
  gbest : Vec K n
  gfit : Val K

/-- The velocity `v'` actually used when `v` was computed at position `x`: `v` itself, or with Shrink the longest
feasible fraction of it. -/
def Limited (constraints : Option String) (lower upper x v v' : Vec K n) : Prop :=
  (constraints = none ∧ v' = v) ∨
  (constraints = some "Shrink" ∧ ∃ b : K, (∀ j, v' j = b * v j) ∧ (InBox lower upper x →
    0 ≤ b ∧ b ≤ 1 ∧ InBox lower upper (fun j => x j + b * v j) ∧
    ∀ b', b < b' → b' ≤ 1 → ¬ InBox lower upper (fun j => x j + b' * v j)))

/-- One move of the swarm. -/
structure SwarmMove (fn : Vec K n → Val K) (deferred : Bool) (w c1 c2 : K) (constraints : Option String)
    (lower upper : Vec K n) (s s' : Swarm K p n) : Prop where
  move : ∀ i : Fin p, ∃ (y : Vec K n) (c : Val K) (r1 r2 v : Vec K n),
    (if deferred then y = s.gbest else Leader fn s.gbest s.gfit s.fit s'.X i y c) ∧
    (∀ j, (0 ≤ r1 j ∧ r1 j < 1) ∧ 0 ≤ r2 j ∧ r2 j < 1) ∧
    (∀ j, v j = w * s.V i j + c1 * r1 j * (s.pbest i j - s.X i j) + c2 * r2 j * (y j - s.X i j)) ∧
    Limited constraints lower upper (s.X i) v (s'.V i) ∧ ∀ j, s'.X i j = s.X i j + s'.V i j
  personal : ∀ i,
    (Improves deferred (fn (s'.X i)) (s.fit i) ∧ s'.pbest i = s'.X i ∧ s'.fit i = fn (s'.X i)) ∨
    (¬ Improves deferred (fn (s'.X i)) (s.fit i) ∧ s'.pbest i = s.pbest i ∧ s'.fit i = s.fit i)
  best : if deferred then ∃ i, s'.gbest = s'.pbest i ∧ s'.gfit = s'.fit i ∧ ∀ q, ¬ s'.fit q < s'.gfit
    else Leader fn s.gbest s.gfit s.fit s'.X p s'.gbest s'.gfit

/-- A restart: the particles in `W` are restarted. -/
structure SwarmRestart (reset : Val K) (lower upper : Vec K n) (W : Finset (Fin p)) (s s' : Swarm K p n) : Prop where
  leader : s'.gbest = s.gbest ∧ s'.gfit = s.gfit
  kept : ∀ i, i ∉ W → s'.X i = s.X i ∧ s'.V i = s.V i ∧ s'.pbest i = s.pbest i ∧ s'.fit i = s.fit i
  restarted : ∀ i ∈ W, (∀ j, s'.V i j = 0) ∧ (∀ j, s'.pbest i j = s'.X i j) ∧ s'.fit i = reset
  inbox : (∀ j, lower j ≤ upper j) → ∀ i ∈ W, InBox lower upper (s'.X i)
  few : W.card ≤ p - 2
  worst : ∀ i ∈ W, ∀ q, q ∉ W → ¬ s.fit i < s.fit q ∧ (s.fit q = .nan → s.fit i = .nan)
  best_kept : ∃ q, q ∉ W ∧ ∀ i, ¬ s.fit i < s.fit q

/-- The swarm before the first move. -/
structure SwarmStart (fn : Vec K n → Val K) (s : Swarm K p n) : Prop where
  still : ∀ i j, s.V i j = 0
  personal : ∀ i, s.pbest i = s.X i ∧ s.fit i = fn (s.X i)
  best : ∃ i, s.gbest = s.X i ∧ s.gfit = fn (s.X i) ∧ ∀ q, ¬ fn (s.X q) < fn (s.X i)

/-- A whole run is a sequence of swarms, one per generation: moves, each possibly preceded by a restart if `restarts`. -/
structure SwarmRun {σ : Type} (fn : Vec K n → Val K) (deferred : Bool) (w c1 c2 : K) (constraints : Option String)
    (lower upper : Vec K n) (reset : Val K) (restarts : Prop) (o : Output σ K p n) (S : List (Swarm K p n)) : Prop where
  length : S.length = o.res.nit
  evals : o.evals = (S.map fun s => List.ofFn s.X).flatten
  start : ∀ s : Swarm K p n, S[0]? = some s → SwarmStart fn s
  steps : ∀ (k : Nat) (s s' : Swarm K p n), S[k]? = some s → S[k + 1]? = some s' → ∃ mid W, SwarmRestart reset lower upper W s mid ∧
    (W.Nonempty → restarts ∧ 0 < k) ∧ (¬ restarts → mid = s) ∧
    SwarmMove fn deferred w c1 c2 constraints lower upper mid s'
  result : ∃ s, S.getLast? = some s ∧ o.res.x = s.gbest ∧ o.res.fval = s.gfit
  callbacks : ∀ (k : Nat) (b : CB K p n), o.cbs[k]? = some b → ∃ s : Swarm K p n, S[k]? = some s ∧ b.X = s.X ∧ b.x = s.gbest ∧ b.fval = s.gfit

end Stochopy.Spec
