import Verif.Lemmas.Validation
import Verif.Props.Evolution

/-!
# C10 (verbosity), C20 (size), C32: which calls return and which raise what
-/

set_option linter.unusedSectionVars false

namespace Stochopy
open Spec Concrete
variable {K σ : Type} [Field K] [LinearOrder K] [IsStrictOrderedRing K] [FloorRing K]
variable {env : Env} {R : Rng σ K} {srt : Argsort K} {fuel : Nat} {g : σ}

/-! ## C32 -/

/-- A call of 'de' returns exactly when its arguments are valid, whatever the objective does. -/
theorem C32_de (he : env.Ok) {a : DE.Args K} (hf : 1 ≤ fuel) (hf' : a.maxiter ≤ 1 + (fuel : Int)) :
    (∃ o, DE.minimize env R fuel a g = .ok o) ↔ ValidDE env a := by
  constructor
  · rintro ⟨o, h⟩; exact DE.minimize_valid h
  · intro hv
    cases h : DE.minimize env R fuel a g with
    | ok o => exact ⟨o, rfl⟩
    | error e => exact absurd (DE.minimize_error he hf hf' h) hv.not_misuse

/-- Every exception is justified by the misuse it stands for. -/
theorem C32_de_error (he : env.Ok) {a : DE.Args K} (hf : 1 ≤ fuel) (hf' : a.maxiter ≤ 1 + (fuel : Int)) {e : PyErr}
    (h : DE.minimize env R fuel a g = .error e) : MisuseDE env a e := DE.minimize_error he hf hf' h

/-- A non-callable objective is a TypeError, whatever else is wrong. -/
theorem C32_de_callable {a : DE.Args K} (h : a.fn = none) : DE.minimize env R fuel a g = .error .typeError := by
  unfold DE.minimize DE.validate
  rw [h]; rfl

/-- The documented misuse is detected without looking at the objective. -/
theorem C32_de_first {a : DE.Args K} (hd : DocumentedDE a) (f f' : Vec K a.ndim → Val K) :
    ∃ e, DE.minimize env R fuel { a with fn := some f } g = .error e ∧
      DE.minimize env R fuel { a with fn := some f' } g = .error e := by
  have hv' : DE.validate { a with fn := some f } = DE.validate { a with fn := some f' } := by
    unfold DE.validate; dsimp only [CommonArgs.badX0Shape, CommonArgs.badX0Len, CommonArgs.badCallback, CommonArgs.p, CommonArgs.ndim, Option.isNone]
    cases DE.strategyMap (K := K) (p := a.popsize.toNat) (n := a.bounds.len) a.strategy <;> rfl
  cases hv : DE.validate { a with fn := some f } with
  | error e =>
    refine ⟨e, ?_, ?_⟩
    · unfold DE.minimize; rw [hv]; rfl
    · unfold DE.minimize; rw [← hv', hv]; rfl
  | ok s =>
    have hb := DE.validate_ok_doc hv hd
    have key : ∃ e, ∀ (f : Vec K a.ndim → Val K) (obj : Obj K a.ndim),
        (do ({ a with fn := some f } : DE.Args K).unpackBounds
            let cons ← DE.consMap a.constraints
            DE.de (p := a.p)
              { R := R, F := a.mutation, CR := a.recombination, strat := s, cons := cons, lower := a.lower,
                upper := a.upper, maxiter := a.maxiter, xtol := a.xtol, ftol := a.ftol, obj := obj }
              a.sync a.cfg fuel a.x0Pop (a.seeded R g)) = .error e := by
      by_cases h2 : a.bounds.dim1 = 2
      · refine ⟨.keyError, fun f obj => ?_⟩
        have hc : a.constraints ∉ [none, some "Random"] := hb.resolve_left fun h => h h2
        cases hcm : DE.consMap a.constraints with
        | ok c => exact absurd (DE.consMap_names.1 ⟨c, hcm⟩) hc
        | error e =>
          obtain ⟨rfl, _⟩ := DE.consMap_error hcm
          unfold CommonArgs.unpackBounds
          rw [if_pos h2]; rfl
      · refine ⟨.valueError, fun f obj => ?_⟩
        unfold CommonArgs.unpackBounds
        rw [if_neg h2]; rfl
    obtain ⟨e, key⟩ := key
    obtain ⟨h1, e', h2⟩ := optimizer_const (env := env) (fn := f) (fn' := f') (sync := a.sync) (w := a.workers) (b := a.backend)
      (key f) (key f')
    refine ⟨e', ?_, ?_⟩
    · unfold DE.minimize; rw [hv]; exact h2
    · unfold DE.minimize; rw [← hv', hv]; exact h1.symm.trans h2

theorem C32_na (he : env.Ok) {a : NA.Args K} (hf : 1 ≤ fuel) (hf' : a.maxiter ≤ 1 + (fuel : Int)) :
    (∃ o, NA.minimize env R srt fuel a g = .ok o) ↔ ValidNA env a := by
  constructor
  · rintro ⟨o, h⟩; exact NA.minimize_valid h
  · intro hv
    cases h : NA.minimize env R srt fuel a g with
    | ok o => exact ⟨o, rfl⟩
    | error e => exact absurd (NA.minimize_error he hf hf' h) hv.not_misuse

theorem C32_na_error (he : env.Ok) {a : NA.Args K} (hf : 1 ≤ fuel) (hf' : a.maxiter ≤ 1 + (fuel : Int)) {e : PyErr}
    (h : NA.minimize env R srt fuel a g = .error e) : MisuseNA env a e := NA.minimize_error he hf hf' h

theorem C32_na_callable {a : NA.Args K} (h : a.fn = none) : NA.minimize env R srt fuel a g = .error .typeError := by
  unfold NA.minimize NA.validate
  rw [h]; rfl

theorem C32_na_first {a : NA.Args K} (hd : DocumentedNA a) (f f' : Vec K a.ndim → Val K) :
    ∃ e, NA.minimize env R srt fuel { a with fn := some f } g = .error e ∧
      NA.minimize env R srt fuel { a with fn := some f' } g = .error e := by
  have hv' : NA.validate { a with fn := some f } = NA.validate { a with fn := some f' } := rfl
  cases hv : NA.validate { a with fn := some f } with
  | error e =>
    refine ⟨e, ?_, ?_⟩
    · unfold NA.minimize; rw [hv]; rfl
    · unfold NA.minimize; rw [← hv', hv]; rfl
  | ok s =>
    have hb := NA.validate_ok_doc hv hd
    have key : ∀ (f : Vec K a.ndim → Val K) (obj : Obj K a.ndim),
        (do ({ a with fn := some f } : NA.Args K).unpackBounds
            NA.na (p := a.p)
              { R := R, argsort := srt, nr := a.nr, lower := a.lower, upper := a.upper, maxiter := a.maxiter,
                xtol := a.xtol, ftol := a.ftol, obj := obj }
              a.cfg fuel a.x0Pop (a.seeded R g)) = .error .valueError := by
      intro f obj
      unfold CommonArgs.unpackBounds
      rw [if_neg hb]; rfl
    obtain ⟨h1, e', h2⟩ := optimizer_const (env := env) (fn := f) (fn' := f') (sync := true) (w := a.workers) (b := a.backend)
      (key f) (key f')
    refine ⟨e', ?_, ?_⟩
    · unfold NA.minimize; rw [hv]; exact h2
    · unfold NA.minimize; rw [← hv', hv]; exact h1.symm.trans h2

section
variable [NumFns K]

theorem C32_cpso (he : env.Ok) {a : CPSO.Args K} (hf : 1 ≤ fuel) (hf' : a.maxiter ≤ 1 + (fuel : Int)) :
    (∃ o, CPSO.minimize env R srt fuel a g = .ok o) ↔ ValidCPSO env a := by
  constructor
  · rintro ⟨o, h⟩; exact CPSO.minimize_valid h
  · intro hv
    cases h : CPSO.minimize env R srt fuel a g with
    | ok o => exact ⟨o, rfl⟩
    | error e => exact absurd (CPSO.minimize_error he hf hf' h) hv.not_misuse

theorem C32_cpso_error (he : env.Ok) {a : CPSO.Args K} (hf : 1 ≤ fuel) (hf' : a.maxiter ≤ 1 + (fuel : Int)) {e : PyErr}
    (h : CPSO.minimize env R srt fuel a g = .error e) : MisuseCPSO env a e := CPSO.minimize_error he hf hf' h

theorem C32_cpso_callable {a : CPSO.Args K} (h : a.fn = none) : CPSO.minimize env R srt fuel a g = .error .typeError := by
  unfold CPSO.minimize CPSO.validate
  rw [h]; rfl

theorem C32_cpso_first {a : CPSO.Args K} (hd : DocumentedCPSO a) (f f' : Vec K a.ndim → Val K) :
    ∃ e, CPSO.minimize env R srt fuel { a with fn := some f } g = .error e ∧
      CPSO.minimize env R srt fuel { a with fn := some f' } g = .error e := by
  have hv' : CPSO.validate { a with fn := some f } = CPSO.validate { a with fn := some f' } := rfl
  cases hv : CPSO.validate { a with fn := some f } with
  | error e =>
    refine ⟨e, ?_, ?_⟩
    · unfold CPSO.minimize; rw [hv]; rfl
    · unfold CPSO.minimize; rw [← hv', hv]; rfl
  | ok s =>
    have hb := CPSO.validate_ok_doc hv hd
    have key : ∃ e, ∀ (f : Vec K a.ndim → Val K) (obj : Obj K a.ndim),
        (do ({ a with fn := some f } : CPSO.Args K).unpackBounds
            let cons ← CPSO.consMap a.constraints
            CPSO.cpso (p := a.p)
              { R := R, argsort := srt, w := a.inertia, c1 := a.cognitivity, c2 := a.sociability,
                gamma := a.competitivity, cons := cons, lower := a.lower, upper := a.upper, maxiter := a.maxiter,
                xtol := a.xtol, ftol := a.ftol, obj := obj }
              a.sync a.cfg fuel a.x0Pop (a.seeded R g)) = .error e := by
      by_cases h2 : a.bounds.dim1 = 2
      · refine ⟨.keyError, fun f obj => ?_⟩
        have hc : a.constraints ∉ [none, some "Shrink"] := hb.resolve_left fun h => h h2
        cases hcm : CPSO.consMap a.constraints with
        | ok c => exact absurd (CPSO.consMap_names.1 ⟨c, hcm⟩) hc
        | error e =>
          obtain ⟨rfl, _⟩ := CPSO.consMap_error hcm
          unfold CommonArgs.unpackBounds
          rw [if_pos h2]; rfl
      · refine ⟨.valueError, fun f obj => ?_⟩
        unfold CommonArgs.unpackBounds
        rw [if_neg h2]; rfl
    obtain ⟨e, key⟩ := key
    obtain ⟨h1, e', h2⟩ := optimizer_const (env := env) (fn := f) (fn' := f') (sync := a.sync) (w := a.workers) (b := a.backend)
      (key f) (key f')
    refine ⟨e', ?_, ?_⟩
    · unfold CPSO.minimize; rw [hv]; exact h2
    · unfold CPSO.minimize; rw [← hv', hv]; exact h1.symm.trans h2

theorem C32_pso (he : env.Ok) {a : PSO.Args K} (hf : 1 ≤ fuel) (hf' : a.maxiter ≤ 1 + (fuel : Int)) :
    (∃ o, PSO.minimize env R srt fuel a g = .ok o) ↔ ValidCPSO env a.toCPSO := C32_cpso (a := a.toCPSO) he hf hf'

theorem C32_pso_error (he : env.Ok) {a : PSO.Args K} (hf : 1 ≤ fuel) (hf' : a.maxiter ≤ 1 + (fuel : Int)) {e : PyErr}
    (h : PSO.minimize env R srt fuel a g = .error e) : MisuseCPSO env a.toCPSO e :=
  C32_cpso_error (a := a.toCPSO) he hf hf' h

theorem C32_pso_callable {a : PSO.Args K} (h : a.fn = none) : PSO.minimize env R srt fuel a g = .error .typeError :=
  C32_cpso_callable (a := a.toCPSO) h

theorem C32_pso_first {a : PSO.Args K} (hd : DocumentedCPSO a.toCPSO) (f f' : Vec K a.ndim → Val K) :
    ∃ e, PSO.minimize env R srt fuel { a with fn := some f } g = .error e ∧
      PSO.minimize env R srt fuel { a with fn := some f' } g = .error e := C32_cpso_first (a := a.toCPSO) hd f f'

end

/-- The concrete calls are valid (and return). -/
example : ValidDE Concrete.env deArgs := (C32_de env_ok (by norm_num) (by decide)).1 (de_run.imp fun _ h => h.1)
example : ValidNA Concrete.env naArgs :=
  (C32_na env_ok (by norm_num) (by decide)).1 (na_run.imp fun _ h => h.1)
example : ValidCPSO Concrete.env cpsoArgs :=
  (C32_cpso env_ok (by norm_num) (by decide)).1 (cpso_run.imp fun _ h => h.1)
/-- A misuse in each class. -/
example : DocumentedDE { deArgs with strategy := "best3bin" } ∧ DocumentedCPSO { cpsoArgs with popsize := 1 } ∧
    DocumentedNA { naArgs with nrperc := 0 } := by
  refine ⟨?_, ?_, ?_⟩
  · iterate 7 apply Or.inr
    left; show "best3bin" ∉ _; decide
  · exact Or.inr (Or.inr (Or.inl (by show (1 : Int) < 2; decide)))
  · iterate 4 apply Or.inr
    show ¬ ((0 : ℚ) < 0 ∧ (0 : ℚ) ≤ 1); simp

/-! ## C20: population size -/

/-- A returning run has enough individuals; a run with too few and no other misuse raises IndexError; an IndexError
has no other cause (but C14). -/
theorem C20_de_size (he : env.Ok) {a : DE.Args K} (hf : 1 ≤ fuel) (hf' : a.maxiter ≤ 1 + (fuel : Int)) :
    ((∃ o, DE.minimize env R fuel a g = .ok o) → needed a.strategy ≤ a.popsize) ∧
    (a.popsize < needed a.strategy → (∀ e, MisuseDE env a e → e = .indexError) →
      DE.minimize env R fuel a g = .error .indexError) ∧
    (DE.minimize env R fuel a g = .error .indexError → a.popsize < needed a.strategy ∨ (a.returnAll = true ∧ a.maxiter < 2)) := by
  refine ⟨?_, ?_, ?_⟩
  · rintro ⟨o, h⟩; exact (DE.minimize_valid h).size
  · intro hlt hm
    cases h : DE.minimize env R fuel a g with
    | ok o => have := (DE.minimize_valid h).size; omega
    | error e => rw [hm e (DE.minimize_error he hf hf' h)]
  · intro h
    rcases DE.minimize_error he hf hf' h with hm | ⟨hm, _⟩ | ⟨hm, _⟩ | ⟨_, hm⟩
    · exact Or.inr hm
    · cases hm
    · cases hm
    · exact Or.inl hm

/-- Three individuals are not enough for rand1bin. -/
example : DE.minimize Concrete.env rng 10 { deArgs with popsize := 3, strategy := "rand1bin" } 0 = .error .indexError := by
  have hr : ∀ {α} {r : Except PyErr α}, (match r with | .error .indexError => true | _ => false) = true →
      r = .error .indexError := by
    intro α r h
    split at h
    · rfl
    · cases h
  exact hr (by decide +kernel)

/-! ## C10: verbosity above 1 -/

theorem misuse_verbosity {a : CommonArgs K} (hv : ValidCommon env { a with returnAll := false }) (hm : 2 ≤ a.maxiter) {e : PyErr}
    (h : MisuseCommon env a e) : e = .valueError := by
  cases e with
  | valueError => rfl
  | typeError => have := hv.objective; unfold MisuseCommon at h; change a.fn.isSome = true at this; rw [h] at this; cases this
  | indexError => have := h.2; omega
  | importError => have := hv.mpi h.1; rw [h.2] at this; cases this
  | keyError => exact h.elim
  | recursionError => exact h.elim
  | attributeError => exact h.elim
  | outOfFuel => exact h.elim
  | unmodelled => exact h.elim

theorem C10_de_verbosity (he : env.Ok) {a : DE.Args K} (hf : 1 ≤ fuel) (hf' : a.maxiter ≤ 1 + (fuel : Int))
    (hr : a.returnAll = true) (hv : ValidDE env { a with returnAll := false }) (hm : 2 ≤ a.maxiter) (hvb : 1 < a.verbosity) :
    DE.minimize env R fuel a g = .error .valueError := by
  cases h : DE.minimize env R fuel a g with
  | ok o => exact absurd ((DE.minimize_valid h).history hr).2 (not_le.2 hvb)
  | error e =>
    rcases DE.minimize_error he hf hf' h with h1 | ⟨h1, _⟩ | ⟨_, h2⟩ | ⟨_, h2⟩
    · rw [misuse_verbosity hv.toValidCommon hm h1]
    · rw [h1]
    · rcases h2 with h2 | h2
      · exact absurd hv.strategy h2
      · exact absurd hv.constraints h2
    · have : (needed a.strategy : Int) ≤ a.popsize := hv.size
      omega

theorem C10_na_verbosity (he : env.Ok) {a : NA.Args K} (hf : 1 ≤ fuel) (hf' : a.maxiter ≤ 1 + (fuel : Int))
    (hr : a.returnAll = true) (hv : ValidNA env { a with returnAll := false }) (hm : 2 ≤ a.maxiter) (hvb : 1 < a.verbosity) :
    NA.minimize env R srt fuel a g = .error .valueError := by
  cases h : NA.minimize env R srt fuel a g with
  | ok o => exact absurd ((NA.minimize_valid h).history hr).2 (not_le.2 hvb)
  | error e =>
    rcases NA.minimize_error he hf hf' h with h1 | ⟨h1, _⟩
    · rw [misuse_verbosity hv.toValidCommon hm h1]
    · rw [h1]

section
variable [NumFns K]

theorem C10_cpso_verbosity (he : env.Ok) {a : CPSO.Args K} (hf : 1 ≤ fuel) (hf' : a.maxiter ≤ 1 + (fuel : Int))
    (hr : a.returnAll = true) (hv : ValidCPSO env { a with returnAll := false }) (hm : 2 ≤ a.maxiter)
    (hvb : 1 < a.verbosity) : CPSO.minimize env R srt fuel a g = .error .valueError := by
  cases h : CPSO.minimize env R srt fuel a g with
  | ok o => exact absurd ((CPSO.minimize_valid h).history hr).2 (not_le.2 hvb)
  | error e =>
    rcases CPSO.minimize_error he hf hf' h with h1 | ⟨h1, _⟩ | ⟨_, h2⟩
    · rw [misuse_verbosity hv.toValidCommon hm h1]
    · rw [h1]
    · exact absurd hv.constraints h2

theorem C10_pso_verbosity (he : env.Ok) {a : PSO.Args K} (hf : 1 ≤ fuel) (hf' : a.maxiter ≤ 1 + (fuel : Int))
    (hr : a.returnAll = true) (hv : ValidCPSO env { a.toCPSO with returnAll := false }) (hm : 2 ≤ a.maxiter)
    (hvb : 1 < a.verbosity) : PSO.minimize env R srt fuel a g = .error .valueError :=
  C10_cpso_verbosity (a := a.toCPSO) he hf hf' hr hv hm hvb

end

/-- Hypotheses of the above are satisfiable. -/
example : ∃ a : DE.Args ℚ, a.returnAll = true ∧ ValidDE Concrete.env { a with returnAll := false } ∧ 2 ≤ a.maxiter ∧ 1 < a.verbosity := by
  refine ⟨{ deArgs with verbosity := 2 }, rfl, ?_, by decide, by show (1 : ℚ) < 2; norm_num⟩
  exact (C32_de (R := rng) (g := 0) (fuel := 10) env_ok (by norm_num) (by decide)).1
    ((returns_iff (r := DE.minimize Concrete.env rng 10 { deArgs with verbosity := 2, returnAll := false } 0)
      (t := fun _ => true) (by decide +kernel)).imp fun _ h => h.1)

end Stochopy
