import Verif.Lemmas.SymmetryAlg

/-! `minimize` with the pattern matches resolved. -/

set_option linter.unusedSectionVars false

namespace Stochopy
variable {K σ : Type} [AddZeroClass K] [One K] [Sub K] [Mul K] [Div K] [Neg K] [NatCast K] [IntCast K] [Pow K ℕ] [ArrayOps K] [LinearOrder K]

theorem DE.validate_tail (a : DE.Args K) : DE.validate a =
    if a.fn.isNone then .error .typeError
    else if a.bounds.ndim ≠ 2 then .error .valueError
    else if a.badX0Shape then .error .valueError
    else if a.popsize < 2 then .error .valueError
    else if a.badX0Len then .error .valueError
    else if ¬ (0 ≤ a.mutation ∧ a.mutation ≤ 2) then .error .valueError
    else if ¬ (0 ≤ a.recombination ∧ a.recombination ≤ 1) then .error .valueError
    else if ¬ (a.updating = "immediate" ∨ a.updating = "deferred") then .error .valueError
    else (strategyMap a.strategy >>= fun strat => if a.badCallback then .error .valueError else .ok strat) := by
  unfold DE.validate
  cases (DE.strategyMap a.strategy : Except PyErr (Strategy K a.p a.ndim)) <;> rfl

theorem DE.minimize_none [IntParts K] {env : Env} {R : Rng σ K} {fuel : Nat} {a : DE.Args K} {g : σ} (h : a.fn = none) :
    DE.minimize env R fuel a g = .error .typeError := by
  unfold DE.minimize DE.validate
  rw [if_pos (by rw [h]; rfl)]
  rfl

theorem DE.minimize_some [IntParts K] {env : Env} (he : env.Ok) {R : Rng σ K} {fuel : Nat} {a : DE.Args K} {g : σ}
    {fn : Vec K a.ndim → Val K} (h : a.fn = some fn) :
    DE.minimize env R fuel a g = DE.validate a >>= fun strat =>
      if a.sync = true ∧ a.backend = some "mpi" ∧ env.mpi4py = false then .error .importError
      else a.unpackBounds >>= fun _ => DE.consMap a.constraints >>= fun cons =>
        DE.de { R := R, F := a.mutation, CR := a.recombination, strat := strat, cons := cons, lower := a.lower,
                upper := a.upper, maxiter := a.maxiter, xtol := a.xtol, ftol := a.ftol, obj := plainObj fn }
          a.sync a.cfg fuel a.x0Pop (a.seeded R g) := by
  unfold DE.minimize
  simp only [h]
  congr 1
  funext strat
  exact optimizer_eq he

theorem CPSO.minimize_none [IntParts K] [NumFns K] {env : Env} {R : Rng σ K} {srt : Argsort K} {fuel : Nat} {a : CPSO.Args K}
    {g : σ} (h : a.fn = none) : CPSO.minimize env R srt fuel a g = .error .typeError := by
  unfold CPSO.minimize CPSO.validate
  rw [if_pos (by rw [h]; rfl)]
  rfl

theorem CPSO.minimize_some [IntParts K] [NumFns K] {env : Env} (he : env.Ok) {R : Rng σ K} {srt : Argsort K} {fuel : Nat}
    {a : CPSO.Args K} {g : σ} {fn : Vec K a.ndim → Val K} (h : a.fn = some fn) :
    CPSO.minimize env R srt fuel a g = CPSO.validate a >>= fun _ =>
      if a.sync = true ∧ a.backend = some "mpi" ∧ env.mpi4py = false then .error .importError
      else a.unpackBounds >>= fun _ => CPSO.consMap a.constraints >>= fun cons =>
        CPSO.cpso { R := R, argsort := srt, w := a.inertia, c1 := a.cognitivity, c2 := a.sociability,
                    gamma := a.competitivity, cons := cons, lower := a.lower, upper := a.upper, maxiter := a.maxiter,
                    xtol := a.xtol, ftol := a.ftol, obj := plainObj fn }
          a.sync a.cfg fuel a.x0Pop (a.seeded R g) := by
  unfold CPSO.minimize
  simp only [h]
  congr 1
  funext _
  exact optimizer_eq he

theorem NA.minimize_none [IntParts K] {env : Env} {R : Rng σ K} {srt : Argsort K} {fuel : Nat} {a : NA.Args K}
    {g : σ} (h : a.fn = none) : NA.minimize env R srt fuel a g = .error .typeError := by
  unfold NA.minimize NA.validate
  rw [if_pos (by rw [h]; rfl)]
  rfl

theorem NA.minimize_some [IntParts K] {env : Env} (he : env.Ok) {R : Rng σ K} {srt : Argsort K} {fuel : Nat}
    {a : NA.Args K} {g : σ} {fn : Vec K a.ndim → Val K} (h : a.fn = some fn) :
    NA.minimize env R srt fuel a g = NA.validate a >>= fun _ =>
      if a.backend = some "mpi" ∧ env.mpi4py = false then .error .importError
      else a.unpackBounds >>= fun _ =>
        NA.na { R := R, argsort := srt, nr := a.nr, lower := a.lower, upper := a.upper, maxiter := a.maxiter,
                xtol := a.xtol, ftol := a.ftol, obj := plainObj fn }
          a.cfg fuel a.x0Pop (a.seeded R g) := by
  unfold NA.minimize
  simp only [h]
  congr 1
  funext _
  rw [optimizer_eq he]
  simp only [true_and]

end Stochopy
