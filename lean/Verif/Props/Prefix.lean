import Verif.Lemmas.PrefixAlg
import Verif.Lemmas.PrefixEvo
import Verif.Props.Affine

/-! # C73, C74: what does not influence the search -/

set_option linter.unusedSectionVars false

namespace Stochopy.Props

section
variable {K σ : Type} [AddZeroClass K] [One K] [Sub K] [Mul K] [Div K] [Neg K] [NatCast K] [IntCast K] [Pow K ℕ] [ArrayOps K] [IntParts K] [LinearOrder K] {env : Env} {R : Rng σ K} {srt : Argsort K} {fuel fuel' : Nat} {g : σ}

/-- C73 for `de`: `maxiter`, `xtol`, `ftol`, `return_all`, `verbosity` and `callback` do not influence the search. -/
theorem C73_de {a : DE.Args K} (he : env.Ok) (r : Reporting K) {o o' : Output σ K a.p a.ndim} (h : DE.minimize env R fuel a g = .ok o)
    (h' : DE.minimize env R fuel' (a.report r) g = .ok o') :
    SameSearch id o o' ∧ (r.verbosity = a.verbosity → SameRecords id o o') := by
  obtain ⟨fn, strat, cons, s0, res, L, e1, e2, e3, e4, e5, rfl⟩ := DE.minimize_run he h
  obtain ⟨fn', strat', cons', s0', res', L', d1, d2, d3, d4, d5, rfl⟩ := DE.minimize_run he h'
  obtain rfl : fn = fn' := Option.some.inj (e1.symm.trans d1)
  obtain rfl : strat = strat' := Except.ok.inj (e2.symm.trans d2)
  obtain rfl : cons = cons' := Except.ok.inj (e3.symm.trans d3)
  obtain rfl : s0 = s0' := Except.ok.inj (e4.symm.trans d4)
  have := (DE.sameAlg _ r.maxiter r.xtol r.ftol a.sync).sameSearch (ev := DE.State.evals) (cl := DE.State.caller) (rg := DE.State.rng)
    (DE.evals_step _ _) (fun _ _ => rfl) e5 d5
  refine ⟨this.1, fun hv => this.2 ?_⟩
  show IntParts.ceil (r.verbosity * (a.popsize : K)) = IntParts.ceil (a.verbosity * (a.popsize : K))
  rw [hv]

/-- C73 for `na`. -/
theorem C73_na {a : NA.Args K} (he : env.Ok) (r : Reporting K) {o o' : Output σ K a.p a.ndim}
    (h : NA.minimize env R srt fuel a g = .ok o) (h' : NA.minimize env R srt fuel' (a.report r) g = .ok o') :
    SameSearch id o o' ∧ (r.verbosity = a.verbosity → SameRecords id o o') := by
  obtain ⟨fn, s0, res, L, e1, e4, e5, rfl⟩ := NA.minimize_run he h
  obtain ⟨fn', s0', res', L', d1, d4, d5, rfl⟩ := NA.minimize_run he h'
  obtain rfl : fn = fn' := Option.some.inj (e1.symm.trans d1)
  obtain rfl : s0 = s0' := Except.ok.inj (e4.symm.trans d4)
  have := (NA.sameAlg _ r.maxiter r.xtol r.ftol).sameSearch (ev := NA.State.evals) (cl := NA.State.caller) (rg := NA.State.rng)
    (NA.evals_step _) (fun _ _ => rfl) e5 d5
  refine ⟨this.1, fun hv => this.2 ?_⟩
  show IntParts.ceil (r.verbosity * (a.popsize : K)) = IntParts.ceil (a.verbosity * (a.popsize : K))
  rw [hv]

/-- C73 for `cpso`.  The rule for restarts refers to `maxiter`, so with restarts `maxiter` is not among the options that may change. -/
theorem C73_cpso [NumFns K] {a : CPSO.Args K} (he : env.Ok) (r : Reporting K)
    (hr : r.maxiter = a.maxiter ∨ a.competitivity = none ∨ a.competitivity = some 0) {o o' : Output σ K a.p a.ndim}
    (h : CPSO.minimize env R srt fuel a g = .ok o) (h' : CPSO.minimize env R srt fuel' (a.report r) g = .ok o') :
    SameSearch id o o' ∧ (r.verbosity = a.verbosity → SameRecords id o o') := by
  obtain ⟨fn, cons, s0, res, L, e1, e3, e4, e5, rfl⟩ := CPSO.minimize_run he h
  obtain ⟨fn', cons', s0', res', L', d1, d3, d4, d5, rfl⟩ := CPSO.minimize_run he h'
  obtain rfl : fn = fn' := Option.some.inj (e1.symm.trans d1)
  obtain rfl : cons = cons' := Except.ok.inj (e3.symm.trans d3)
  obtain rfl : s0 = s0' := Except.ok.inj (e4.symm.trans d4)
  have := (CPSO.sameAlg _ r.xtol r.ftol a.sync hr).sameSearch (ev := CPSO.State.evals) (cl := CPSO.State.caller)
    (rg := CPSO.State.rng) (CPSO.evals_step _ _) (CPSO.evals_post _) e5 d5
  refine ⟨this.1, fun hv => this.2 ?_⟩
  show IntParts.ceil (r.verbosity * (a.popsize : K)) = IntParts.ceil (a.verbosity * (a.popsize : K))
  rw [hv]

/-- C73 for `pso`. -/
theorem C73_pso [NumFns K] {a : PSO.Args K} (he : env.Ok) (r : Reporting K) {o o' : Output σ K a.p a.ndim}
    (h : PSO.minimize env R srt fuel a g = .ok o) (h' : PSO.minimize env R srt fuel' (a.report r) g = .ok o') :
    SameSearch id o o' ∧ (r.verbosity = a.verbosity → SameRecords id o o') :=
  C73_cpso (a := a.toCPSO) he r (.inr (.inl rfl)) h h'

end

section
variable {K σ : Type} [AddZeroClass K] [One K] [Sub K] [Mul K] [Div K] [Neg K] [NatCast K] [IntCast K] [Pow K ℕ] [ArrayOps K] [LinearOrder K] [IntParts K] {env : Env} {R : Rng σ K} {srt : Argsort K} {fuel fuel' : Nat} {g : σ}

section
variable [NumFns K] {eigh : CMAES.Eigh K} {a : Evo.Args K} {junk : Vec K a.ndim}

/-- C73 for `cmaes`, with and without `Penalize`. -/
theorem C73_cmaes (he : env.Ok) (r : Reporting K) {o o' : Output σ K a.p a.ndim}
    (h : CMAES.minimize env R srt eigh fuel a junk g = .ok o) (h' : CMAES.minimize env R srt eigh fuel' (a.report r) junk g = .ok o') :
    SameSearch id o o' ∧ (r.verbosity = a.verbosity → SameRecords id o o') := by
  obtain ⟨fn, pen, m, hd, e1, e2, e3, e4⟩ := CMAES.minimize_run he h
  obtain ⟨fn', pen', m', hd', d1, d2, d3, d4⟩ := CMAES.minimize_run he h'
  obtain rfl : fn = fn' := Option.some.inj (e1.symm.trans d1)
  obtain rfl : pen = pen' := Except.ok.inj (e2.symm.trans d2)
  obtain rfl : m = m' := Except.ok.inj (e3.symm.trans d3)
  have := Evo.sameSearch (Evo.kin_report r) (Evo.kin_report' r) e4 d4
  refine ⟨this.1, fun hv => this.2 ?_⟩
  show IntParts.ceil (r.verbosity * (a.popsize : K)) = IntParts.ceil (a.verbosity * (a.popsize : K))
  rw [hv]

/-- C73 for `vdcma`. -/
theorem C73_vdcma (he : env.Ok) (r : Reporting K) {o o' : Output σ K a.p a.ndim}
    (h : VDCMA.minimize env R srt fuel a junk g = .ok o) (h' : VDCMA.minimize env R srt fuel' (a.report r) junk g = .ok o') :
    SameSearch id o o' ∧ (r.verbosity = a.verbosity → SameRecords id o o') := by
  obtain ⟨fn, pen, m, hd, e1, e2, e3, e4⟩ := VDCMA.minimize_run he h
  obtain ⟨fn', pen', m', hd', d1, d2, d3, d4⟩ := VDCMA.minimize_run he h'
  obtain rfl : fn = fn' := Option.some.inj (e1.symm.trans d1)
  obtain rfl : pen = pen' := Except.ok.inj (e2.symm.trans d2)
  obtain rfl : m = m' := Except.ok.inj (e3.symm.trans d3)
  have := Evo.sameSearch (Evo.kin_report r) (Evo.kin_report' r) e4 d4
  refine ⟨this.1, fun hv => this.2 ?_⟩
  show IntParts.ceil (r.verbosity * (a.popsize : K)) = IntParts.ceil (a.verbosity * (a.popsize : K))
  rw [hv]

/-- C74 for `cmaes`: without constraints the search only depends on how the values compare; the values themselves only enter the
tests for stopping. -/
theorem C74_cmaes (he : env.Ok) (hc : a.constraints = none) {φ : Val K → Val K} (hφ : Rising φ) (hs : Comparing srt φ)
    {o o' : Output σ K a.p a.ndim} (h : CMAES.minimize env R srt eigh fuel a junk g = .ok o)
    (h' : CMAES.minimize env R srt eigh fuel' (a.revalue φ) junk g = .ok o') : SameSearch φ o o' ∧ SameRecords φ o o' := by
  obtain ⟨fn, pen, m, hd, e1, e2, e3, e4⟩ := CMAES.minimize_run he h
  obtain ⟨fn', pen', m', hd', d1, d2, d3, d4⟩ := CMAES.minimize_run he h'
  have d1 : a.fn.map (fun f x => φ (f x)) = some fn' := d1
  rw [e1] at d1
  obtain rfl : (fun x => φ (fn x)) = fn' := Option.some.inj d1
  obtain rfl : pen = false := consMap_none hc e2
  obtain rfl : pen' = false := consMap_none (a := a.revalue φ) hc d2
  obtain rfl : m = m' := Except.ok.inj (e3.symm.trans d3)
  have := Evo.sameSearch (Evo.kin_revalue hφ hs) (Evo.kin_revalue' hφ hs) e4 d4
  exact ⟨this.1, this.2 rfl⟩

/-- C74 for `vdcma`. -/
theorem C74_vdcma (he : env.Ok) (hc : a.constraints = none) {φ : Val K → Val K} (hφ : Rising φ) (hs : Comparing srt φ)
    {o o' : Output σ K a.p a.ndim} (h : VDCMA.minimize env R srt fuel a junk g = .ok o)
    (h' : VDCMA.minimize env R srt fuel' (a.revalue φ) junk g = .ok o') : SameSearch φ o o' ∧ SameRecords φ o o' := by
  obtain ⟨fn, pen, m, hd, e1, e2, e3, e4⟩ := VDCMA.minimize_run he h
  obtain ⟨fn', pen', m', hd', d1, d2, d3, d4⟩ := VDCMA.minimize_run he h'
  have d1 : a.fn.map (fun f x => φ (f x)) = some fn' := d1
  rw [e1] at d1
  obtain rfl : (fun x => φ (fn x)) = fn' := Option.some.inj d1
  obtain rfl : pen = false := consMap_none hc e2
  obtain rfl : pen' = false := consMap_none (a := a.revalue φ) hc d2
  obtain rfl : m = m' := Except.ok.inj (e3.symm.trans d3)
  have := Evo.sameSearch (Evo.kin_revalue hφ hs) (Evo.kin_revalue' hφ hs) e4 d4
  exact ⟨this.1, this.2 rfl⟩

end

end

namespace Concrete
open Stochopy.Concrete

/-- Two generations instead of three, other tolerances, no callback. -/
def shorter : Reporting ℚ :=
  { maxiter := 2, xtol := 0, ftol := .fin (-1), returnAll := true, verbosity := 1, callback := none }

/-- The first two generations of the longer run. -/
def Half {p n : Nat} (o o' : Output Nat ℚ p n) : Prop :=
  o.res.nit = 3 ∧ o'.res.nit = 2 ∧ o'.evals <+: o.evals ∧ o.cbs.length = 3 ∧ o'.cbs = [] ∧
    ∀ b ∈ o.cbs, b.nit = 2 → b.x = o'.res.x ∧ b.fval = o'.res.fval

def three {p n : Nat} (o : Output Nat ℚ p n) : Bool := o.res.nit == 3 && o.cbs.length == 3
def two {p n : Nat} (o : Output Nat ℚ p n) : Bool := o.res.nit == 2 && o.cbs.isEmpty

theorem half {p n : Nat} {o o' : Output Nat ℚ p n} (h : SameSearch id o o') (h3 : three o = true) (h2 : two o' = true) : Half o o' := by
  simp only [three, two, Bool.and_eq_true, beq_iff_eq, List.isEmpty_iff] at h3 h2
  have hb := h.2 (by omega)
  exact ⟨h3.1, h2.1, hb.evals, h3.2, h2.2, fun b hb' hn => ⟨(hb.result b hb' (by omega)).1, (hb.result b hb' (by omega)).2.1⟩⟩

theorem de_prefix : ∃ o o', DE.minimize env rng 10 deArgs 0 = .ok o ∧ DE.minimize env rng 10 (deArgs.report shorter) 0 = .ok o' ∧
    Half o o' := by
  obtain ⟨o, h, hi⟩ := returns_iff (r := DE.minimize env rng 10 deArgs 0) (t := three) (by decide +kernel)
  obtain ⟨o', h', hi'⟩ := returns_iff (r := DE.minimize env rng 10 (deArgs.report shorter) 0) (t := two) (by decide +kernel)
  exact ⟨o, o', h, h', half (C73_de env_ok shorter h h').1 hi hi'⟩

theorem na_prefix : ∃ o o', NA.minimize env rng stableArgsort 10 naArgs 0 = .ok o ∧
    NA.minimize env rng stableArgsort 10 (naArgs.report shorter) 0 = .ok o' ∧ Half o o' := by
  obtain ⟨o, h, hi⟩ := returns_iff (r := NA.minimize env rng stableArgsort 10 naArgs 0) (t := three) (by decide +kernel)
  obtain ⟨o', h', hi'⟩ := returns_iff (r := NA.minimize env rng stableArgsort 10 (naArgs.report shorter) 0) (t := two)
    (by decide +kernel)
  exact ⟨o, o', h, h', half (C73_na env_ok shorter h h').1 hi hi'⟩

theorem pso_prefix : ∃ o o', PSO.minimize env rng stableArgsort 10 psoArgs 0 = .ok o ∧
    PSO.minimize env rng stableArgsort 10 (psoArgs.report shorter) 0 = .ok o' ∧ Half o o' := by
  obtain ⟨o, h, hi⟩ := returns_iff (r := PSO.minimize env rng stableArgsort 10 psoArgs 0) (t := three) (by decide +kernel)
  obtain ⟨o', h', hi'⟩ := returns_iff (r := PSO.minimize env rng stableArgsort 10 (psoArgs.report shorter) 0) (t := two)
    (by decide +kernel)
  exact ⟨o, o', h, h', half (C73_pso env_ok shorter h h').1 hi hi'⟩

theorem cmaes_prefix : ∃ o o', CMAES.minimize env rng stableArgsort eighDiag 10 evoArgs junk0 0 = .ok o ∧
    CMAES.minimize env rng stableArgsort eighDiag 10 (evoArgs.report shorter) junk0 0 = .ok o' ∧ Half o o' := by
  obtain ⟨o, h, hi⟩ := returns_iff (r := CMAES.minimize env rng stableArgsort eighDiag 10 evoArgs junk0 0) (t := three)
    (by decide +kernel)
  obtain ⟨o', h', hi'⟩ := returns_iff (r := CMAES.minimize env rng stableArgsort eighDiag 10 (evoArgs.report shorter) junk0 0)
    (t := two) (by decide +kernel)
  exact ⟨o, o', h, h', half (C73_cmaes env_ok shorter h h').1 hi hi'⟩

theorem vdcma_prefix : ∃ o o', VDCMA.minimize env rng stableArgsort 10 evoArgs junk0 0 = .ok o ∧
    VDCMA.minimize env rng stableArgsort 10 (evoArgs.report shorter) junk0 0 = .ok o' ∧ Half o o' := by
  obtain ⟨o, h, hi⟩ := returns_iff (r := VDCMA.minimize env rng stableArgsort 10 evoArgs junk0 0) (t := three)
    (by decide +kernel)
  obtain ⟨o', h', hi'⟩ := returns_iff (r := VDCMA.minimize env rng stableArgsort 10 (evoArgs.report shorter) junk0 0)
    (t := two) (by decide +kernel)
  exact ⟨o, o', h, h', half (C73_vdcma env_ok shorter h h').1 hi hi'⟩

/-- With restarts: other tolerances, the same `maxiter`. -/
def other : Reporting ℚ :=
  { maxiter := 3, xtol := 0, ftol := .fin 2, returnAll := false, verbosity := 1, callback := none }

theorem cpso_prefix : ∃ o o', CPSO.minimize env rng stableArgsort 10 restartArgs 0 = .ok o ∧
    CPSO.minimize env rng stableArgsort 10 (restartArgs.report other) 0 = .ok o' ∧ Half o o' := by
  obtain ⟨o, h, hi⟩ := returns_iff (r := CPSO.minimize env rng stableArgsort 10 restartArgs 0) (t := three) (by decide +kernel)
  obtain ⟨o', h', hi'⟩ := returns_iff (r := CPSO.minimize env rng stableArgsort 10 (restartArgs.report other) 0) (t := two)
    (by decide +kernel)
  exact ⟨o, o', h, h', half (C73_cpso env_ok other (.inl rfl) h h').1 hi hi'⟩

/-- The hypothesis of `C73_cpso` is needed: a run of four generations restarts other particles after the second one than
a run of three. -/
def longer : Reporting ℚ :=
  { maxiter := 4, xtol := 0, ftol := .fin (-1), returnAll := false, verbosity := 1, callback := none }

def scheduled : CPSO.Args ℚ := { restartArgs with competitivity := some (9 / 8) }

theorem cpso_schedule :
    ¬ (points (CPSO.minimize env rng stableArgsort 10 scheduled 0) <+:
        points (CPSO.minimize env rng stableArgsort 10 (scheduled.report longer) 0)) := by
  decide +kernel

/-- A constant added to the objective: the same three generations. -/
theorem cmaes_ranks : ∃ o o', CMAES.minimize env rng stableArgsort eighDiag 10 evoArgs junk0 0 = .ok o ∧
    CMAES.minimize env rng stableArgsort eighDiag 10 (evoArgs.revalue lift) junk0 0 = .ok o' ∧ three o = true ∧ three o' = true ∧
    o'.evals = o.evals ∧ o'.res.fval = lift o.res.fval ∧ o'.rng = o.rng := by
  obtain ⟨o, h, hi⟩ := returns_iff (r := CMAES.minimize env rng stableArgsort eighDiag 10 evoArgs junk0 0) (t := three)
    (by decide +kernel)
  obtain ⟨o', h', hi'⟩ := returns_iff (r := CMAES.minimize env rng stableArgsort eighDiag 10 (evoArgs.revalue lift) junk0 0)
    (t := three) (by decide +kernel)
  have hb := (C74_cmaes env_ok rfl lift_rising (comparing_stable lift_rising) h h').1
  simp only [three, Bool.and_eq_true, beq_iff_eq] at hi hi'
  have hl := (hb.1 (by omega)).last (by omega)
  exact ⟨o, o', h, h', by simp [three, hi], by simp [three, hi'], hl.2.2.2.1, hl.2.1, hl.2.2.2.2.1⟩

theorem vdcma_ranks : ∃ o o', VDCMA.minimize env rng stableArgsort 10 evoArgs junk0 0 = .ok o ∧
    VDCMA.minimize env rng stableArgsort 10 (evoArgs.revalue lift) junk0 0 = .ok o' ∧ three o = true ∧ three o' = true ∧
    o'.evals = o.evals ∧ o'.res.fval = lift o.res.fval ∧ o'.rng = o.rng := by
  obtain ⟨o, h, hi⟩ := returns_iff (r := VDCMA.minimize env rng stableArgsort 10 evoArgs junk0 0) (t := three) (by decide +kernel)
  obtain ⟨o', h', hi'⟩ := returns_iff (r := VDCMA.minimize env rng stableArgsort 10 (evoArgs.revalue lift) junk0 0)
    (t := three) (by decide +kernel)
  have hb := (C74_vdcma env_ok rfl lift_rising (comparing_stable lift_rising) h h').1
  simp only [three, Bool.and_eq_true, beq_iff_eq] at hi hi'
  have hl := (hb.1 (by omega)).last (by omega)
  exact ⟨o, o', h, h', by simp [three, hi], by simp [three, hi'], hl.2.2.2.1, hl.2.1, hl.2.2.2.2.1⟩

end Concrete

end Stochopy.Props
