import Verif.Lemmas.Double
import Verif.Props.Box
import Verif.Props.PSORun
import Verif.Props.DERun
import Verif.Props.Runs

/-!
# C83–C86: the search box in floating point arithmetic

`F64` (Base/F64.lean) is the set of binary floating point numbers with 53 bits; its operations round to nearest.  The runs
below are exact models of what the code computes with doubles: nothing overflows or underflows in them.
-/

set_option linter.unusedSectionVars false

namespace Stochopy
open Spec Concrete

namespace Double

/-- Square roots are rounded; the exponential, the logarithm and the power are stand-ins (they are not called in these runs). -/
instance : NumFns F64 where
  sqrt := F64.sqrt
  exp _ := 0
  log _ := -1
  pow _ _ := 0

theorem neg_one : (-1 : F64) < 0 := by decide +kernel

instance : NegativeLog F64 := ⟨fun _ _ _ => neg_one⟩

instance {p : Nat} [h : Fact (p ≤ 2 ^ 53)] : CPSO.FewRestarts F64 p := CPSO.fewRestarts_double (fun _ => le_rfl) h.out

/-- A number in `[0, 1)`. -/
def unit (q : ℚ) : F64 := if 0 ≤ F64.of q ∧ F64.of q < 1 then F64.of q else 0

/-- A generator that delivers the given numbers, then zeros. -/
def stream (l : List ℚ) : Rng Nat F64 where
  seed s := s.toNat
  rand g := (unit (l.getD g 0), g + 1)
  randn g := (0, g + 1)
  randint n g := (g % n, g)
  perm _ g := (Equiv.refl _, g)

theorem zero_lt_one : (0 : F64) < 1 := by
  show (0 : ℚ) < (1 : F64).1
  rw [F64.one_val]; norm_num

theorem stream_ok (l : List ℚ) : (stream l).Ok where
  rand_nonneg g := by
    simp only [stream, unit]
    split_ifs with h
    · exact h.1
    · exact le_rfl
  rand_lt_one g := by
    simp only [stream, unit]
    split_ifs with h
    · exact h.2
    · exact zero_lt_one
  randint_lt n g h := Nat.mod_lt _ h

/-- The interval `[-5.12, 5.12]` in each coordinate. -/
def wide (n : Nat) : NdArr F64 :=
  { shape := [n, 2], get := fun l => if l.getD 1 0 = 0 then F64.of (-512 / 100) else F64.of (512 / 100) }

/-- Two particles on a line, at `-5` and `5`; the objective is `-x`.  All parameters have their default values. -/
def lineArgs (updating : String) : PSO.Args F64 :=
  { bounds := wide 1, fn := some fun x => .fin (-(x ⟨0, by decide⟩)),
    x0 := some { shape := [2, 1], get := fun l => if l.getD 0 0 = 0 then F64.of (-5) else F64.of 5 },
    maxiter := 2, popsize := 2, seed := none, xtol := F64.of (1 / 10 ^ 8), ftol := .fin (F64.of (1 / 10 ^ 8)), workers := 1,
    backend := none, returnAll := false, verbosity := 1, callback := none,
    inertia := F64.of (7298 / 10000), cognitivity := F64.of (149618 / 100000), sociability := F64.of (149618 / 100000),
    constraints := some "Shrink", updating := updating }

/-- Two particles in the plane, at `(-5, 1)` and `(5.12, 0)`, without inertia; the objective is `(x - 5.12)² + y²`. -/
def planeArgs (updating : String) : PSO.Args F64 :=
  { bounds := wide 2,
    fn := some fun x => .fin ((x ⟨0, by decide⟩ - F64.of (512 / 100)) ^ 2 + (x ⟨1, by decide⟩) ^ 2),
    x0 := some { shape := [2, 2], get := fun l =>
      if l = [0, 0] then F64.of (-5) else if l = [0, 1] then 1 else if l = [1, 0] then F64.of (512 / 100) else 0 },
    maxiter := 3, popsize := 2, seed := none, xtol := F64.of (1 / 10 ^ 8), ftol := .fin (F64.of (-1)), workers := 1,
    backend := none, returnAll := false, verbosity := 1, callback := none,
    inertia := 0, cognitivity := F64.of (149618 / 100000), sociability := F64.of (149618 / 100000),
    constraints := some "Shrink", updating := updating }

/-- An evaluated point exceeds the upper bound of the first coordinate. -/
def above {p n : Nat} (u : Vec F64 n) (o : Output Nat F64 p n) : Bool :=
  o.evals.any fun x => (List.finRange n).any fun j => decide (u j < x j)

theorem above_iff {p n : Nat} {u : Vec F64 n} {o : Output Nat F64 p n} (h : above u o = true) : ∃ x ∈ o.evals, ∃ j, u j < x j := by
  obtain ⟨x, hx, h⟩ := List.any_eq_true.1 h
  obtain ⟨j, -, h⟩ := List.any_eq_true.1 h
  exact ⟨x, hx, j, of_decide_eq_true h⟩

theorem lineArgs_good (u : String) : GoodStart (lineArgs u).toCommonArgs := by
  refine ⟨?_, ?_⟩
  · show ∀ j : Fin 1, (wide 1).get [j, 0] ≤ (wide 1).get [j, 1]
    decide +kernel
  · intro x hx
    cases hx
    show ∀ i < 2, ∀ j : Fin 1, (wide 1).get [j, 0] ≤ (if [i, j.val].getD 0 0 = 0 then F64.of (-5) else F64.of 5) ∧
      (if [i, j.val].getD 0 0 = 0 then F64.of (-5) else F64.of 5) ≤ (wide 1).get [j, 1]
    decide +kernel

theorem planeArgs_good (u : String) : GoodStart (planeArgs u).toCommonArgs := by
  refine ⟨?_, ?_⟩
  · show ∀ j : Fin 2, (wide 2).get [j, 0] ≤ (wide 2).get [j, 1]
    decide +kernel
  · intro x hx
    cases hx
    show ∀ i < 2, ∀ j : Fin 2, (wide 2).get [j, 0] ≤ (if [i, j.val] = [0, 0] then F64.of (-5) else if [i, j.val] = [0, 1] then 1
        else if [i, j.val] = [1, 0] then F64.of (512 / 100) else 0) ∧
      (if [i, j.val] = [0, 0] then F64.of (-5) else if [i, j.val] = [0, 1] then 1
        else if [i, j.val] = [1, 0] then F64.of (512 / 100) else 0) ≤ (wide 2).get [j, 1]
    decide +kernel

/-- The draws of the run on the line, and of the run in the plane: the social weights of the first particle are `0.9` and, in
the plane, `0.9, 0.5` and then `1/1024, 0.9`. -/
def lineDraws : List ℚ := [1 / 2, 1 / 2, 9 / 10, 1 / 2]
def planeDraws : List ℚ :=
  [1 / 2, 1 / 2, 1 / 2, 1 / 2, 9 / 10, 1 / 2, 1 / 2, 1 / 2, 1 / 2, 1 / 2, 1 / 2, 1 / 2, 1 / 1024, 9 / 10, 1 / 2, 1 / 2]

end Double

open Double

/-! ## C83

Full claim: in floating point arithmetic, with `Shrink` and a feasible `x0`, all points evaluated by `pso` and `cpso` satisfy the
bounds (`C16_pso` and `C16_cpso` prove it for exact arithmetic).  It is false: `X + V * ((upper - X) / V)` may be rounded to a
number above `upper`. -/

/-- With default parameters, `-5` moves to `5.120000000000001`. -/
theorem C83_pso_violated : ∀ updating ∈ ["deferred", "immediate"], ∃ o,
    PSO.minimize Concrete.env (stream lineDraws) stableArgsort 10 (lineArgs updating) 0 = .ok o ∧
    ∃ x ∈ o.evals, ∃ j, hi (lineArgs updating).toCommonArgs j < x j := by
  intro updating hu
  have : returns (PSO.minimize Concrete.env (stream lineDraws) stableArgsort 10 (lineArgs updating) 0)
      (above (hi (lineArgs updating).toCommonArgs)) = true := by
    rcases List.mem_cons.1 hu with rfl | hu
    · decide +kernel
    · rw [List.mem_singleton.1 hu]; decide +kernel
  obtain ⟨o, h, ht⟩ := returns_iff this
  exact ⟨o, h, above_iff ht⟩

/-- In the next generation the position is not feasible, and the part of the velocity that is used may be any number.  Here it
is about 684, and an evaluated point is more than 30 times the width of the box away from it. -/
theorem C83_pso_far_violated : ∀ updating ∈ ["deferred", "immediate"], ∃ o,
    PSO.minimize Concrete.env (stream planeDraws) stableArgsort 10 (planeArgs updating) 0 = .ok o ∧
    ∃ x ∈ o.evals, ∃ j, (x j).1 < (lo (planeArgs updating).toCommonArgs j).1 -
      30 * ((hi (planeArgs updating).toCommonArgs j).1 - (lo (planeArgs updating).toCommonArgs j).1) := by
  intro updating hu
  have : returns (PSO.minimize Concrete.env (stream planeDraws) stableArgsort 10 (planeArgs updating) 0)
      (fun o => o.evals.any fun x => decide ((x ⟨1, Nat.one_lt_two⟩).1 < rd (-512 / 100) - 30 * (rd (512 / 100) - rd (-512 / 100)))) = true := by
    rcases List.mem_cons.1 hu with rfl | hu
    · decide +kernel
    · rw [List.mem_singleton.1 hu]; decide +kernel
  obtain ⟨o, h, ht⟩ := returns_iff this
  obtain ⟨x, hx, ht⟩ := List.any_eq_true.1 ht
  exact ⟨o, h, x, hx, ⟨1, Nat.one_lt_two⟩, of_decide_eq_true ht⟩

/-- The hypotheses of the claim are met by these runs. -/
example : ∀ updating ∈ ["deferred", "immediate"], (stream lineDraws).Ok ∧ (stream planeDraws).Ok ∧
    GoodStart (lineArgs updating).toCommonArgs ∧ GoodStart (planeArgs updating).toCommonArgs ∧
    (lineArgs updating).constraints = some "Shrink" ∧ (planeArgs updating).constraints = some "Shrink" :=
  fun _ _ => ⟨stream_ok _, stream_ok _, lineArgs_good _, planeArgs_good _, rfl, rfl⟩

/-- What remains of the claim: a move of a feasible particle uses a part in `[0, 1]` of the velocity and passes a bound by at
most the fraction `2 ^ (-51)` of the distance to it, rounded. -/
theorem C83_shrink_partial {n : Nat} {lower upper X V : Vec F64 n} (hX : InBox lower upper X) (j : Fin n) :
    (∃ b : F64, 0 ≤ b ∧ b ≤ 1 ∧ (CPSO.consRow .shrink lower upper X V).2 = fun j => V j * b) ∧
      F64.of ((lower j).1 - ((X j).1 - (lower j).1) * 2 ^ (-51 : ℤ)) ≤ (CPSO.consRow .shrink lower upper X V).1 j ∧
      (CPSO.consRow .shrink lower upper X V).1 j ≤ F64.of ((upper j).1 + ((upper j).1 - (X j).1) * 2 ^ (-51 : ℤ)) :=
  ⟨⟨_, (CPSO.shrinkBeta_unit hX).1, (CPSO.shrinkBeta_unit hX).2, rfl⟩, CPSO.le_shrunk hX j, CPSO.shrunk_le hX j⟩

/-- A move that is cut, and ends above the bound. -/
example : F64.of (512 / 100) < (CPSO.consRow .shrink (fun _ => F64.of (-512 / 100)) (fun _ => F64.of (512 / 100))
    (fun _ : Fin 1 => F64.of (-5)) (fun _ => F64.of 13)).1 0 := by decide +kernel

/-! ## C84

Full claim: in floating point arithmetic, all points evaluated by `na` satisfy the bounds (`C28_na` proves it for exact
arithmetic), and the first ones are the rows of `x0` if it is given.  Both parts are false: the points are mapped to the unit
cube and back. -/

namespace Double

/-- Two models, both bounds of the interval `[-3.6, 3.7]`. -/
def edgeArgs : NA.Args F64 :=
  { bounds := { shape := [1, 2], get := fun l => if l.getD 1 0 = 0 then F64.of (-36 / 10) else F64.of (37 / 10) },
    fn := some fun x => .fin (x ⟨0, by decide⟩),
    x0 := some { shape := [2, 1], get := fun l => if l.getD 0 0 = 0 then F64.of (-36 / 10) else F64.of (37 / 10) },
    maxiter := 2, popsize := 2, seed := none, xtol := F64.of (1 / 10 ^ 8), ftol := .fin (F64.of (1 / 10 ^ 8)), workers := 1,
    backend := none, returnAll := false, verbosity := 1, callback := none, nrperc := F64.of (1 / 2) }

theorem edgeArgs_good : GoodStart edgeArgs.toCommonArgs := by
  refine ⟨?_, ?_⟩
  · show ∀ j : Fin 1, edgeArgs.bounds.get [j, 0] ≤ edgeArgs.bounds.get [j, 1]
    decide +kernel
  · intro x hx
    cases hx
    show ∀ i < 2, ∀ j : Fin 1, edgeArgs.bounds.get [j, 0] ≤ (if [i, j.val].getD 0 0 = 0 then F64.of (-36 / 10) else F64.of (37 / 10)) ∧
      (if [i, j.val].getD 0 0 = 0 then F64.of (-36 / 10) else F64.of (37 / 10)) ≤ edgeArgs.bounds.get [j, 1]
    decide +kernel

end Double

/-- The upper bound `3.7`, given as a row of `x0`, is evaluated as `3.7000000000000006`. -/
theorem C84_na_violated : ∃ o, NA.minimize Concrete.env (stream lineDraws) stableArgsort 10 edgeArgs 0 = .ok o ∧
    (stream lineDraws).Ok ∧ GoodStart edgeArgs.toCommonArgs ∧
    (∃ x ∈ o.evals, ∃ j, hi edgeArgs.toCommonArgs j < x j) ∧
    ∃ X, edgeArgs.x0Pop = some X ∧ o.evals[1]? ≠ some (X ⟨1, by decide⟩) := by
  obtain ⟨o, h, ht⟩ := returns_iff (r := NA.minimize Concrete.env (stream lineDraws) stableArgsort 10 edgeArgs 0)
    (t := fun o => match o.evals[1]? with
      | some x => decide (hi edgeArgs.toCommonArgs (⟨0, Nat.one_pos⟩ : Fin 1) < x (⟨0, Nat.one_pos⟩ : Fin 1))
      | none => false) (by decide +kernel)
  cases hx : o.evals[1]? with
  | none => rw [hx] at ht; simp at ht
  | some x =>
    rw [hx] at ht
    have hlt := of_decide_eq_true ht
    refine ⟨o, h, stream_ok _, edgeArgs_good, ⟨x, List.mem_of_getElem? hx, _, hlt⟩, _, rfl, ?_⟩
    rw [hx]
    intro he
    have := congrFun (Option.some.inj he) (⟨0, Nat.one_pos⟩ : Fin 1)
    rw [this] at hlt
    exact absurd hlt (lt_irrefl _)

/-- The first population. -/
def firstPop {σ K : Type} [AddZeroClass K] [One K] [Sub K] [Mul K] [Div K] [Neg K] [NatCast K] (R : Rng σ K) (a : CommonArgs K) (g : σ) :
    Pop K a.p a.ndim :=
  match a.x0Pop with
  | some X => X
  | none => (lhs R a.p (lo a) (hi a) (a.seeded R g)).1

/-- The bounds, moved outwards by a rounding error. -/
def widened {n : Nat} (lower upper : Vec F64 n) : Vec F64 n × Vec F64 n :=
  (fun j => F64.of ((lower j).1 - max |(lower j).1| |(upper j).1| * 2 ^ (-53 : ℤ)),
    fun j => F64.of ((upper j).1 + max |(lower j).1| |(upper j).1| * 2 ^ (-53 : ℤ)))

section
variable {σ : Type} {R : Rng σ F64} {env : Env} {srt : Argsort F64} {fuel : Nat} {g : σ}

/-- What remains of the claim: all points are between `lower` and the rounded `(upper - lower) + lower`, which is at most the
rounded `upper + (upper - lower) * 2 ^ (-53)`. -/
theorem C84_na_partial (he : env.Ok) (hR : R.Ok) {a : NA.Args F64} (hb : ∀ j, lo a.toCommonArgs j ≤ hi a.toCommonArgs j)
    (hfirst : ∀ i, InBox (lo a.toCommonArgs) (hi a.toCommonArgs) (firstPop R a.toCommonArgs g i))
    {o : Output σ F64 a.p a.ndim} (h : NA.minimize env R srt fuel a g = .ok o) :
    StaysInBox (lo a.toCommonArgs) (naTop (lo a.toCommonArgs) (hi a.toCommonArgs)) o ∧
      RecordedInBox (lo a.toCommonArgs) (naTop (lo a.toCommonArgs) (hi a.toCommonArgs)) 1 o ∧
      ∀ j, naTop (lo a.toCommonArgs) (hi a.toCommonArgs) j ≤
        F64.of ((hi a.toCommonArgs j).1 + ((hi a.toCommonArgs j).1 - (lo a.toCommonArgs j).1) * 2 ^ (-53 : ℤ)) := by
  have h1 := na_staysInBox he hR hb
    (fun X hX i => NA.normalize_unit (by have := hfirst i; rw [firstPop, hX] at this; exact this))
    (fun hX i => NA.normalize_unit (by have := hfirst i; rw [firstPop, hX] at this; exact this)) h
  exact ⟨h1.1, h1.2, fun j => naTop_le (hb j)⟩

/-- The run above meets the hypotheses. -/
example : ∃ o, NA.minimize Concrete.env (stream lineDraws) stableArgsort 10 edgeArgs 0 = .ok o ∧
    StaysInBox (lo edgeArgs.toCommonArgs) (naTop (lo edgeArgs.toCommonArgs) (hi edgeArgs.toCommonArgs)) o := by
  obtain ⟨o, h, -⟩ := C84_na_violated
  exact ⟨o, h, (C84_na_partial env_ok (stream_ok _) edgeArgs_good.ordered
    (fun i => goodStart_pop edgeArgs_good (X := fun i j => _) rfl i) h).1⟩

/-! ## C85

Full claim: in floating point arithmetic, the Latin hypercube sample is inside the bounds (`C18_de`, … for exact
arithmetic).  It is false. -/

namespace Double

/-- The interval `[2, 2.1]`, without `x0`. -/
def lhsArgs : DE.Args F64 :=
  { bounds := { shape := [1, 2], get := fun l => if l.getD 1 0 = 0 then F64.of 2 else F64.of (21 / 10) },
    fn := some fun x => .fin (x ⟨0, by decide⟩), x0 := none,
    maxiter := 2, popsize := 4, seed := none, xtol := F64.of (1 / 10 ^ 8), ftol := .fin (F64.of (1 / 10 ^ 8)), workers := 1,
    backend := none, returnAll := false, verbosity := 1, callback := none, mutation := F64.of (1 / 2),
    recombination := F64.of (1 / 10), strategy := "best1bin", constraints := some "Random", updating := "deferred" }

end Double

/-- If the draw for the lowest slice is zero, `2` becomes `1.9999999999999998`. -/
theorem C85_lhs_violated : ∃ o, DE.minimize Concrete.env (stream []) 10 lhsArgs 0 = .ok o ∧ (stream []).Ok ∧
    GoodStart lhsArgs.toCommonArgs ∧ lhsArgs.constraints = some "Random" ∧
    ∃ x ∈ o.evals.take lhsArgs.p, ∃ j, x j < lo lhsArgs.toCommonArgs j := by
  obtain ⟨o, h, ht⟩ := returns_iff (r := DE.minimize Concrete.env (stream []) 10 lhsArgs 0)
    (t := fun o => (o.evals.take lhsArgs.p).any fun x => decide (x ⟨0, by decide⟩ < lo lhsArgs.toCommonArgs ⟨0, by decide⟩))
    (by decide +kernel)
  obtain ⟨x, hx, ht⟩ := List.any_eq_true.1 ht
  refine ⟨o, h, stream_ok _, ⟨?_, fun x hx => by cases hx⟩, rfl, x, hx, _, of_decide_eq_true ht⟩
  show ∀ j : Fin 1, lhsArgs.bounds.get [j, 0] ≤ lhsArgs.bounds.get [j, 1]
  decide +kernel

/-- What remains of the claim: all points are between the images of `-1` and `1` under the map of the code to the bounds. -/
theorem C85_lhs_partial (hR : R.Ok) {p n : Nat} {lower upper : Vec F64 n} (hb : ∀ j, lower j ≤ upper j) (hp : p ≤ 2 ^ 50)
    (k : Fin p) (j : Fin n) :
    (-1) * ((1 / 2) * (upper j - lower j)) + (1 / 2) * (upper j + lower j) ≤ (lhs R p lower upper g).1 k j ∧
      (lhs R p lower upper g).1 k j ≤ 1 * ((1 / 2) * (upper j - lower j)) + (1 / 2) * (upper j + lower j) :=
  lhs_between hR hb hp g k j

/-- These images differ from the bounds by a rounding error. -/
theorem C85_lhs_error_partial (hR : R.Ok) {p n : Nat} {lower upper : Vec F64 n} (hb : ∀ j, lower j ≤ upper j) (hp : p ≤ 2 ^ 50)
    (k : Fin p) : InBox (widened lower upper).1 (widened lower upper).2 ((lhs R p lower upper g).1 k) := fun j =>
  have := C85_lhs_partial hR hb hp k j
  ⟨lhsScale_ends.1.trans this.1, this.2.trans lhsScale_ends.2⟩

example : InBox (fun j => lhsScale (lo lhsArgs.toCommonArgs j) (hi lhsArgs.toCommonArgs j) (-1))
    (fun j => lhsScale (lo lhsArgs.toCommonArgs j) (hi lhsArgs.toCommonArgs j) 1)
    ((lhs (stream []) 4 (lo lhsArgs.toCommonArgs) (hi lhsArgs.toCommonArgs) 0).1 0) :=
  fun j => C85_lhs_partial (stream_ok _) C85_lhs_violated.choose_spec.2.2.1.ordered (by norm_num) 0 j

/-! ## C86 -/

/-- In floating point arithmetic, with `Random` and a feasible first population, all points of `de` satisfy the bounds. -/
theorem C86_de (he : env.Ok) (hR : R.Ok) {a : DE.Args F64} (hc : a.constraints = some "Random")
    (hb : ∀ j, lo a.toCommonArgs j ≤ hi a.toCommonArgs j)
    (hfirst : ∀ i, InBox (lo a.toCommonArgs) (hi a.toCommonArgs) (firstPop R a.toCommonArgs g i))
    {o : Output σ F64 a.p a.ndim} (h : DE.minimize env R fuel a g = .ok o) :
    StaysInBox (lo a.toCommonArgs) (hi a.toCommonArgs) o ∧ RecordedInBox (lo a.toCommonArgs) (hi a.toCommonArgs) 0 o :=
  de_staysInBox he hR hc hb (fun _ => le_rfl) (fun _ => le_rfl)
    (fun X hX i => by have := hfirst i; rw [firstPop, hX] at this; exact this)
    (fun hX i => by have := hfirst i; rw [firstPop, hX] at this; exact this) h

/-- Without `x0`, they are in the smallest box that contains the bounds and the images of `-1` and `1` under the map of the Latin
hypercube to the bounds. -/
theorem C86_de_lhs (he : env.Ok) (hR : R.Ok) {a : DE.Args F64} (hc : a.constraints = some "Random") (hx0 : a.x0 = none)
    (hp : a.popsize ≤ 2 ^ 50) (hb : ∀ j, lo a.toCommonArgs j ≤ hi a.toCommonArgs j)
    {o : Output σ F64 a.p a.ndim} (h : DE.minimize env R fuel a g = .ok o) :
    StaysInBox
      (fun j => min (lo a.toCommonArgs j) ((-1) * ((1 / 2) * (hi a.toCommonArgs j - lo a.toCommonArgs j)) +
        (1 / 2) * (hi a.toCommonArgs j + lo a.toCommonArgs j)))
      (fun j => max (hi a.toCommonArgs j) (1 * ((1 / 2) * (hi a.toCommonArgs j - lo a.toCommonArgs j)) +
        (1 / 2) * (hi a.toCommonArgs j + lo a.toCommonArgs j))) o := by
  refine (de_staysInBox he hR hc hb (fun _ => min_le_left _ _) (fun _ => le_max_left _ _)
    (fun X hX => by simp [CommonArgs.x0Pop, hx0] at hX) (fun _ i j => ?_) h).1
  have := lhs_between hR hb (by show a.popsize.toNat ≤ _; omega) (a.seeded R g) i j
  exact ⟨(min_le_right _ _).trans this.1, this.2.trans (le_max_right _ _)⟩

end

namespace Double

/-- The coordinates of four individuals. -/
def mixRow (i : Nat) : F64 := if i = 0 then F64.of (-512 / 100) else if i = 1 then F64.of (512 / 100) else if i = 2 then 0 else 1

/-- Four individuals in the interval `[-5.12, 5.12]`, on both bounds and inside. -/
def mixArgs : DE.Args F64 :=
  { bounds := wide 1, fn := some fun x => .fin (-(x ⟨0, by decide⟩)),
    x0 := some { shape := [4, 1], get := fun l => mixRow (l.getD 0 0) },
    maxiter := 2, popsize := 4, seed := none, xtol := F64.of (1 / 10 ^ 8), ftol := .fin (F64.of (-10)), workers := 1,
    backend := none, returnAll := true, verbosity := 1, callback := none, mutation := F64.of (9 / 10),
    recombination := F64.of (9 / 10), strategy := "rand1bin", constraints := some "Random", updating := "deferred" }

theorem mixArgs_good : GoodStart mixArgs.toCommonArgs := by
  refine ⟨?_, ?_⟩
  · show ∀ j : Fin 1, (wide 1).get [j, 0] ≤ (wide 1).get [j, 1]
    decide +kernel
  · intro x hx
    cases hx
    show ∀ i < 4, ∀ j : Fin 1, (wide 1).get [j, 0] ≤ mixRow i ∧ mixRow i ≤ (wide 1).get [j, 1]
    decide +kernel

end Double

/-- Runs that meet the hypotheses: one from a given population, and the one of `C85_lhs_violated`. -/
example : (∃ o, DE.minimize Concrete.env (stream [1 / 3, 1 / 3, 1 / 3, 1 / 3, 1 / 10, 2 / 10, 3 / 10, 999 / 1000]) 10 mixArgs 0 = .ok o ∧
      o.evals.length = 8 ∧ StaysInBox (lo mixArgs.toCommonArgs) (hi mixArgs.toCommonArgs) o) ∧
    ∃ o, DE.minimize Concrete.env (stream []) 10 lhsArgs 0 = .ok o ∧ ∃ l u : Vec F64 1, StaysInBox l u o := by
  constructor
  · obtain ⟨o, h, ht⟩ := returns_iff (r := DE.minimize Concrete.env
      (stream [1 / 3, 1 / 3, 1 / 3, 1 / 3, 1 / 10, 2 / 10, 3 / 10, 999 / 1000]) 10 mixArgs 0)
      (t := fun o => o.evals.length == 8) (by decide +kernel)
    exact ⟨o, h, by simpa using ht, (C86_de env_ok (stream_ok _) rfl mixArgs_good.ordered
      (fun i => goodStart_pop mixArgs_good (X := fun i j => _) rfl i) h).1⟩
  · obtain ⟨o, h, -, hg, -, -⟩ := C85_lhs_violated
    exact ⟨o, h, _, _, C86_de_lhs env_ok (stream_ok _) rfl rfl (by decide) hg.ordered h⟩

/-! ## The theorems for any arithmetic at floating point numbers -/

/-- For instance: the complete description of runs of `pso` and the reporting of an evaluated point of `de`. -/
example : (∃ o S M gs hs, PSO.minimize Concrete.env (stream planeDraws) stableArgsort 10 (planeArgs "deferred") 0 = .ok o ∧
      Spec.PSO.Run (psoSetting (stream planeDraws) stableArgsort (planeArgs "deferred")
        fun x => .fin ((x ⟨0, by decide⟩ - F64.of (512 / 100)) ^ 2 + (x ⟨1, by decide⟩) ^ 2))
        (planeArgs "deferred").x0Pop 0 (reporting (planeArgs "deferred").toCommonArgs) S M gs hs o.res.nit o.res.status o) ∧
    ∃ o, DE.minimize Concrete.env (stream []) 10 lhsArgs 0 = .ok o ∧ ReportsEvaluatedPoint (fun x => .fin (x ⟨0, by decide⟩)) o := by
  constructor
  · obtain ⟨o, h, -⟩ := C83_pso_far_violated "deferred" (by simp)
    haveI : Fact ((planeArgs "deferred").toCPSO.p ≤ 2 ^ 53) := ⟨by decide⟩
    obtain ⟨S, M, gs, hs, hr⟩ := C79_pso env_ok rfl h
    exact ⟨o, S, M, gs, hs, h, hr⟩
  · obtain ⟨o, h, -⟩ := C85_lhs_violated
    exact ⟨o, h, C01_de env_ok rfl h⟩

end Stochopy
