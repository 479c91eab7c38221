import Verif.Lemmas.Chart
import Verif.Props.Concrete
import Verif.Props.Affine

/-! # Full crossover does not depend on the coordinates (C100) -/

set_option linter.unusedSectionVars false

namespace Stochopy.Props
open Stochopy
variable {K σ : Type} [Field K] [LinearOrder K] [IsStrictOrderedRing K] [FloorRing K] {p n : Nat}

theorem de_chart {env : Env} (he : env.Ok) {R : Rng σ K} (hR : R.Ok) {fuel : Nat} {a : DE.Args K} {g : σ}
    {A B : Matrix (Fin a.ndim) (Fin a.ndim) K} (hBA : B * A = 1) (t : Vec K a.ndim)
    (hdist : ∀ x y, distLe (chart A t x) (chart A t y) a.xtol = distLe x y a.xtol)
    (hx : a.x0 ≠ none) (hc : a.constraints = none) (hCR : a.recombination = 1) :
    DE.minimize env R fuel (a.chart A B t) g = (DE.minimize env R fuel a g).map (Output.map id (chart A t) (chart A t)) := by
  have hv : DE.validate (a.chart A B t) = DE.validate a := by
    rw [DE.validate_tail, DE.validate_tail]
    obtain ⟨⟨_, fn, x0, _, _, _, _, _, _, _, _, _, _⟩, _, _, _, _, _⟩ := a
    cases fn <;> cases x0 <;> rfl
  have hx' : (a.chart A B t).x0Pop = a.x0Pop.map fun x i => chart A t (x i) := by
    obtain ⟨⟨_, _, x0, _, _, _, _, _, _, _, _, _, _⟩, _, _, _, _, _⟩ := a
    cases x0 with
    | none => rfl
    | some x =>
      show some _ = some _
      congr 1
      funext i j
      exact dif_pos j.2
  have hx0 : a.x0Pop ≠ none := by
    obtain ⟨⟨_, _, x0, _, _, _, _, _, _, _, _, _, _⟩, _, _, _, _, _⟩ := a
    cases x0
    · exact absurd rfl hx
    · exact Option.some_ne_none _
  cases hfn : a.fn with
  | none => rw [DE.minimize_none hfn, DE.minimize_none (by show Option.map _ a.fn = _; rw [hfn]; rfl)]; rfl
  | some fn =>
    rw [DE.minimize_some he hfn]
    refine (DE.minimize_some he (a := a.chart A B t) (fn := fun x => fn (unchart B t x))
      (by show Option.map _ a.fn = _; rw [hfn]; rfl)).trans ?_
    rw [hv, map_bind_ex]
    refine bind_congr_ok fun (strat : DE.Strategy K a.p a.ndim) hval => ?_
    have hst : DE.strategyMap a.strategy = .ok strat := by
      rw [DE.validate_tail] at hval
      split_ifs at hval
      all_goals first
        | (cases hval)
        | (obtain ⟨st, h1, h2⟩ := bind_ok_iff.1 hval; cases h2 <;> exact h1)
    have ha := chart_strategyMap A t _ hst
    show (if a.sync = true ∧ a.backend = some "mpi" ∧ env.mpi4py = false then _ else _) = _
    split_ifs
    · rfl
    · rw [map_bind_ex]
      show (a.unpackBounds >>= _) = _
      congr 1
      funext _
      rw [map_bind_ex]
      show (DE.consMap a.constraints >>= _) = _
      rw [hc]
      show DE.de _ _ _ _ _ _ = Except.map _ (DE.de _ _ _ _ _ _)
      have h : DE.Same (fun v => v) (chart A t)
          { R := R, F := a.mutation, CR := a.recombination, strat := strat, cons := .none, lower := a.lower, upper := a.upper,
            maxiter := a.maxiter, xtol := a.xtol, ftol := a.ftol, obj := plainObj fn }
          { R := R, F := a.mutation, CR := a.recombination, strat := strat, cons := .none, lower := a.lower,
            upper := a.upper, maxiter := a.maxiter, xtol := a.xtol, ftol := a.ftol,
            obj := plainObj fun x => fn (unchart B t x) } :=
        { prob :=
            { rising := rising_id
              pop := fun X => by
                funext i
                show fn _ = fn _
                rw [unchart_chart hBA]
              one := fun x => by
                show fn _ = fn _
                rw [unchart_chart hBA]
              ftol := rfl
              dist := hdist }
          maxiter := rfl
          R := rfl
          sync := candSync_full hR rfl rfl rfl rfl rfl rfl hCR.ge ha
          async := fun r1 hr => candAsync_full rfl rfl rfl rfl rfl rfl ha fun j => by
            obtain ⟨g', h'⟩ := hr j
            rw [h']
            exact (hR.rand_lt_one _).le.trans hCR.ge }
      have h2 := h.run a.sync a.cfg fuel a.x0Pop (a.seeded R g) fun h0 => absurd h0 hx0
      exact (congrArg (fun x => DE.de _ a.sync a.cfg fuel x (a.seeded R g)) hx').trans h2

/-- C100 for `de`, isometries: with `recombination=1` and no constraints, a starting population and an objective that are rotated,
reflected and shifted give the run that is rotated, reflected and shifted, with the same random numbers, values, counts and status. -/
theorem C100_de_isometry {env : Env} (he : env.Ok) {R : Rng σ K} (hR : R.Ok) {fuel : Nat} {a : DE.Args K} {g : σ}
    {Q : Matrix (Fin a.ndim) (Fin a.ndim) K} (hQ : Q.transpose * Q = 1) (t : Vec K a.ndim)
    (hx : a.x0 ≠ none) (hc : a.constraints = none) (hCR : a.recombination = 1) :
    DE.minimize env R fuel (a.chart Q Q.transpose t) g =
      (DE.minimize env R fuel a g).map (Output.map id (chart Q t) (chart Q t)) :=
  de_chart he hR hQ t (fun x y => distLe_isometry hQ t x y _) hx hc hCR

/-- C100 for `de`, any linear coordinates: the same for every invertible matrix, when `xtol` is 0. -/
theorem C100_de_linear {env : Env} (he : env.Ok) {R : Rng σ K} (hR : R.Ok) {fuel : Nat} {a : DE.Args K} {g : σ}
    {A B : Matrix (Fin a.ndim) (Fin a.ndim) K} (hBA : B * A = 1) (t : Vec K a.ndim) (htol : a.xtol = 0)
    (hx : a.x0 ≠ none) (hc : a.constraints = none) (hCR : a.recombination = 1) :
    DE.minimize env R fuel (a.chart A B t) g =
      (DE.minimize env R fuel a g).map (Output.map id (chart A t) (chart A t)) :=
  de_chart he hR hBA t (fun x y => by rw [htol]; exact distLe_chart hBA t x y) hx hc hCR

/-! ## Concrete cases -/

open Concrete

/-- Five points off the axes. -/
def startPop : NdArr ℚ := { shape := [5, 2], get := fun l =>
  ((l.getD 0 0 * 3 % 5 : Nat) : ℚ) / 4 + ((l.getD 1 0 : Nat) : ℚ) / 8 - 1 / 3 }

/-- Full crossover, no constraints. -/
def fullArgs : DE.Args ℚ :=
  { deArgs with x0 := some startPop, recombination := 1, constraints := none, xtol := 0, ftol := .fin (-1), seed := none }

/-- A shear, its inverse, and a rotation. -/
def shear : Matrix (Fin 2) (Fin 2) ℚ := !![1, 2; 0, 1]
def unshear : Matrix (Fin 2) (Fin 2) ℚ := !![1, -2; 0, 1]
def rotation : Matrix (Fin 2) (Fin 2) ℚ := !![3 / 5, -4 / 5; 4 / 5, 3 / 5]

/-- The hypotheses are met by runs that improve on the starting population, for both updating modes. -/
example : (∀ u ∈ ["deferred", "immediate"], ∃ o, DE.minimize Concrete.env rng 10 { fullArgs with updating := u } 0 = .ok o ∧ improves o = true) ∧
    unshear * shear = 1 ∧ rotation.transpose * rotation = 1 := by
  refine ⟨?_, ?_, ?_⟩
  · intro u hu
    have h : u = "deferred" ∨ u = "immediate" := by simpa using hu
    rcases h with rfl | rfl
    · exact returns_iff (by decide +kernel)
    · exact returns_iff (by decide +kernel)
  · ext i j; fin_cases i <;> fin_cases j <;> norm_num [shear, unshear, Matrix.mul_apply, Fin.sum_univ_two]
  · ext i j; fin_cases i <;> fin_cases j <;> norm_num [rotation, Matrix.mul_apply, Fin.sum_univ_two]

/-- The reported point of a run. -/
def reported {σ : Type} {p n : Nat} (r : Except PyErr (Output σ ℚ p n)) : Option (List ℚ) :=
  match r with
  | .ok o => some (List.ofFn o.res.x)
  | .error _ => none

/-- Crossover of some coordinates only does depend on the coordinate system: with `recombination = 1/10` the rotated problem is not
solved by the rotated run. -/
theorem C100_de_needs_full :
    reported (DE.minimize Concrete.env rng 10 ({ fullArgs with recombination := 1 / 10 }.chart rotation rotation.transpose fun _ => 0) 0) ≠
    reported ((DE.minimize Concrete.env rng 10 { fullArgs with recombination := 1 / 10 } 0).map
      (Output.map id (chart (n := 2) rotation fun _ => 0) (chart (n := 2) rotation fun _ => 0))) := by decide +kernel

end Stochopy.Props
