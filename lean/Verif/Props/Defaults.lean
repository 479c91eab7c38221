import Verif.Props.Validation
import Verif.Model.Defaults

/-! # Calls with default arguments (C59) -/

set_option linter.unusedSectionVars false

namespace Stochopy.Props
open Stochopy.Concrete Spec

section
variable {K σ : Type} [Field K] [LinearOrder K] [IsStrictOrderedRing K] [FloorRing K] [NumFns K] [LawfulNumFns K]
  {env : Env} {R : Rng σ K} {fuel : Nat} {g : σ} {srt : Argsort K}
  (bounds : NdArr K) (fn : Vec K bounds.len → Val K)

theorem validCommon_default (hb : bounds.shape = [bounds.len, 2]) : ValidCommon env (defaultCommon bounds fn) where
  objective := rfl
  bounds := hb
  x0 := by intro x h; cases h
  popsize := by simp [defaultCommon]
  callback := by simp [defaultCommon]
  history := by simp [defaultCommon]
  mpi := by simp [defaultCommon]

/-- C59 for 'de': with only `fun` and `bounds`, it runs on every objective and every non-empty list of bounds. -/
theorem C59_de (he : env.Ok) (hf : 99 ≤ fuel) (hb : bounds.shape = [bounds.len, 2]) (hd : 0 < bounds.len) :
    ∃ o, DE.minimize env R fuel (DE.defaults bounds fn) g = .ok o := by
  refine (C32_de he (by omega) (by simp [DE.defaults, defaultCommon]; omega)).2
    { validCommon_default bounds fn hb with
      mutation := ?_, recombination := ?_, updating := ?_, strategy := ?_,
      constraints := ?_, size := ?_, dim := hd }
  · simp only [DE.defaults]; norm_num
  · simp only [DE.defaults]; norm_num
  · simp [DE.defaults]
  · simp [DE.defaults]
  · simp [DE.defaults]
  · simp [DE.defaults, defaultCommon, needed]

theorem C59_cpso (he : env.Ok) (hf : 99 ≤ fuel) (hb : bounds.shape = [bounds.len, 2]) :
    ∃ o, CPSO.minimize env R srt fuel (CPSO.defaults bounds fn) g = .ok o := by
  refine (C32_cpso he (by omega) (by simp [CPSO.defaults, defaultCommon]; omega)).2
    { validCommon_default bounds fn hb with
      inertia := ?_, cognitivity := ?_, sociability := ?_, competitivity := ?_,
      updating := ?_, constraints := ?_ }
  · simp only [CPSO.defaults]; norm_num
  · simp only [CPSO.defaults]; norm_num
  · simp only [CPSO.defaults]; norm_num
  · intro gm h; simp only [CPSO.defaults, Option.some.injEq] at h; subst h; norm_num
  · simp [CPSO.defaults]
  · simp [CPSO.defaults]

theorem C59_pso (he : env.Ok) (hf : 99 ≤ fuel) (hb : bounds.shape = [bounds.len, 2]) :
    ∃ o, PSO.minimize env R srt fuel (PSO.defaults bounds fn) g = .ok o := by
  refine (C32_pso he (by omega) (by simp [PSO.defaults, defaultCommon]; omega)).2
    { validCommon_default bounds fn hb with
      inertia := ?_, cognitivity := ?_, sociability := ?_, competitivity := ?_,
      updating := ?_, constraints := ?_ }
  · simp only [PSO.Args.toCPSO, PSO.defaults]; norm_num
  · simp only [PSO.Args.toCPSO, PSO.defaults]; norm_num
  · simp only [PSO.Args.toCPSO, PSO.defaults]; norm_num
  · intro gm h; cases h
  · simp [PSO.Args.toCPSO, PSO.defaults]
  · simp [PSO.Args.toCPSO, PSO.defaults]

/-- C59 for 'na' with any valid callback argument; the default is not one. -/
theorem C59_na_partial (he : env.Ok) (hf : 99 ≤ fuel) (hb : bounds.shape = [bounds.len, 2]) (cb : Option Bool)
    (hcb : cb ≠ some false) :
    ∃ o, NA.minimize env R srt fuel { NA.defaults bounds fn with callback := cb } g = .ok o := by
  refine (C32_na (a := { NA.defaults bounds fn with callback := cb }) he (by omega)
    (by simp [NA.defaults, defaultCommon]; omega)).2
    { objective := rfl, bounds := hb, x0 := ?_, popsize := ?_, callback := hcb, history := ?_, mpi := ?_, nrperc := ?_ }
  · intro x h; cases h
  · simp [NA.defaults, defaultCommon]
  · simp [NA.defaults, defaultCommon]
  · simp [NA.defaults, defaultCommon]
  · simp only [NA.defaults]; norm_num

/-- C59 fails for 'na': the default callback True is rejected by the callback check, so 'na' called with only `fun` and
`bounds` raises ValueError on every objective and all bounds. -/
theorem C59_na_violated (hb : bounds.shape = [bounds.len, 2]) :
    NA.minimize env R srt fuel (NA.defaults bounds fn) g = .error .valueError := by
  have hv : NA.validate (NA.defaults bounds fn) = .error .valueError := by
    have h2 : (NA.defaults bounds fn).bounds.ndim = 2 := by
      show bounds.ndim = 2
      unfold NdArr.ndim; rw [hb]; rfl
    have h3 : (NA.defaults bounds fn).badX0Shape = false := rfl
    have h4 : (NA.defaults bounds fn).badX0Len = false := rfl
    have h5 : (NA.defaults bounds fn).badCallback = true := rfl
    unfold NA.validate
    rw [if_neg (by rintro ⟨⟩), h2, h3, h4, h5]
    split_ifs
    all_goals first
      | rfl
      | simp at *
  unfold NA.minimize
  rw [hv]; rfl

end

/-- The bounds of the examples have the required shape. -/
example : bounds2.shape = [bounds2.len, 2] ∧ 0 < bounds2.len := by decide

end Stochopy.Props
