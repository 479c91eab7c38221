import Verif.Lemmas.DE
import Verif.Lemmas.CPSO
import Verif.Lemmas.NA
import Verif.Lemmas.Argsort
import Mathlib.Data.Rat.Floor
import Mathlib.Algebra.Order.Ring.Rat
import Mathlib.Algebra.Field.Rat

/-!
# A concrete setting over `ℚ`

Used to show that the hypotheses of the theorems are satisfiable by non-trivial runs and to exhibit the
counterexamples.  The generator is a small deterministic one satisfying `Rng.Ok`.
-/

namespace Stochopy.Concrete

/-- Two MPI ranks. -/
def env : Env := { mpi4py := true, mpiSize := 2, reduceOrder := [1, 0] }

theorem env_ok : env.Ok := ⟨by decide, by decide⟩

/-- A deterministic generator: the state is a counter. -/
def rng : Rng Nat ℚ where
  seed s := s.toNat
  rand g := (((g * 7 + 3) % 10 : Nat) / 10, g + 1)
  randn g := (((g * 3 + 1) % 5 : Nat) - 2, g + 1)
  randint n g := (g % n, g + 1)
  perm _ g := (Equiv.refl _, g + 1)

theorem rng_ok : rng.Ok where
  rand_nonneg g := by simp only [rng]; positivity
  rand_lt_one g := by
    simp only [rng]
    rw [div_lt_one (by norm_num)]
    exact_mod_cast Nat.mod_lt _ (by norm_num)
  randint_lt n g h := Nat.mod_lt _ h

/-- Rational stand-ins for the elementary functions (only positivity of `exp` matters). -/
instance : NumFns ℚ where
  sqrt x := x
  exp x := if 0 ≤ x then 1 + x else 1 / (1 - x)
  log x := x - 1
  pow x y := if 0 ≤ y * (x - 1) then 1 + y * (x - 1) else 1 / (1 - y * (x - 1))

instance : LawfulNumFns ℚ where
  exp_pos x := by
    simp only [NumFns.exp]
    split_ifs with h
    · positivity
    · have : 0 < 1 - x := by linarith
      positivity
  log_neg x _ h := by
    simp only [NumFns.log]
    linarith
  log_lt x y _ h := by
    simp only [NumFns.log]
    linarith
  sqrt_pos _ h := h
  sqrt_nonneg _ h := h
  pow_pos x y _ := by
    simp only [NumFns.pow]
    split_ifs with h
    · positivity
    · have : 0 < 1 - y * (x - 1) := by linarith
      positivity

/-- The box `[-1, 1]^2`. -/
def bounds2 : NdArr ℚ := { shape := [2, 2], get := fun l => if l.getD 1 0 = 0 then -1 else 1 }

/-- A quadratic bowl in two variables with minimum at `(3/5, -1/2)`. -/
def sphere2 (x : Vec ℚ 2) : Val ℚ := .fin ((x 0 - 3 / 5) * (x 0 - 3 / 5) + (x 1 + 1 / 2) * (x 1 + 1 / 2))

/-- Arguments shared by the examples: 5 individuals, 3 generations, history and callback. -/
def common : CommonArgs ℚ :=
  { bounds := bounds2, fn := some sphere2, x0 := none, maxiter := 3, popsize := 5, seed := some 1, xtol := 1 / 100,
    ftol := .fin (1 / 100), workers := 1, backend := none, returnAll := true, verbosity := 1, callback := some true }

def deArgs : DE.Args ℚ :=
  { common with mutation := 1 / 2, recombination := 1 / 10, strategy := "best1bin", constraints := some "Random",
                updating := "immediate" }

def cpsoArgs : CPSO.Args ℚ :=
  { common with inertia := 73 / 100, cognitivity := 149 / 100, sociability := 149 / 100, competitivity := some 1,
                constraints := some "Shrink", updating := "immediate" }

def psoArgs : PSO.Args ℚ :=
  { common with inertia := 73 / 100, cognitivity := 149 / 100, sociability := 149 / 100,
                constraints := some "Shrink", updating := "deferred" }

def naArgs : NA.Args ℚ := { common with nrperc := 1 / 2 }

/-- Does the run return, with a result satisfying `t`? -/
def returns {α : Type} (r : Except PyErr α) (t : α → Bool) : Bool :=
  match r with
  | .ok o => t o
  | .error _ => false

theorem returns_iff {α : Type} {r : Except PyErr α} {t : α → Bool} (h : returns r t = true) : ∃ o, r = .ok o ∧ t o = true := by
  cases r with
  | error e => simp [returns] at h
  | ok o => exact ⟨o, rfl, h⟩

/-- A run of three generations in which the best value strictly improves. -/
def improves {p n : Nat} (o : Output Nat ℚ p n) : Bool :=
  o.res.nit == 3 && match o.cbs.head? with
    | some b => decide (o.res.fval < b.fval)
    | none => false

theorem de_run : ∃ o, DE.minimize env rng 10 deArgs 0 = .ok o ∧ improves o = true := returns_iff (by decide +kernel)

theorem pso_run : ∃ o, PSO.minimize env rng stableArgsort 10 psoArgs 0 = .ok o ∧ improves o = true :=
  returns_iff (by decide +kernel)

theorem cpso_run : ∃ o, CPSO.minimize env rng stableArgsort 10 cpsoArgs 0 = .ok o ∧ improves o = true :=
  returns_iff (by decide +kernel)

theorem na_run : ∃ o, NA.minimize env rng stableArgsort 10 naArgs 0 = .ok o ∧ improves o = true :=
  returns_iff (by decide +kernel)

end Stochopy.Concrete
