import Verif.Lemmas.PSORun
import Verif.Props.DERun

/-!
# C79: complete description of runs of the particle swarms
-/

set_option linter.unusedSectionVars false

namespace Stochopy
open Spec Concrete
variable {K σ : Type} [AddZeroClass K] [One K] [Sub K] [Mul K] [Div K] [Neg K] [NatCast K] [IntCast K] [Pow K ℕ] [ArrayOps K] [IntParts K] [LinearOrder K] [NumFns K]
variable {env : Env} {R : Rng σ K} {srt : Argsort K} {fuel : Nat} {g : σ}

/-- The setting of a call of `cpso`. -/
def cpsoSetting (R : Rng σ K) (srt : Argsort K) (a : CPSO.Args K) (fn : Vec K a.ndim → Val K) : Spec.PSO.Setting σ K a.ndim :=
  { R := R, sort := srt, fn := fn, deferred := Deferred a.updating a.workers a.backend, inertia := a.inertia, cognitivity := a.cognitivity
    sociability := a.sociability, competitivity := a.competitivity, shrink := a.constraints = some "Shrink", lower := lo a.toCommonArgs
    upper := hi a.toCommonArgs, maxiter := a.maxiter, xtol := a.xtol, ftol := a.ftol }

/-- The setting of a call of `pso`: no competitivity. -/
def psoSetting (R : Rng σ K) (srt : Argsort K) (a : PSO.Args K) (fn : Vec K a.ndim → Val K) : Spec.PSO.Setting σ K a.ndim :=
  { R := R, sort := srt, fn := fn, deferred := Deferred a.updating a.workers a.backend, inertia := a.inertia, cognitivity := a.cognitivity
    sociability := a.sociability, competitivity := none, shrink := a.constraints = some "Shrink", lower := lo a.toCommonArgs
    upper := hi a.toCommonArgs, maxiter := a.maxiter, xtol := a.xtol, ftol := a.ftol }

/-- C79: every run of `cpso` is the run of the competitive particle swarm described in `Spec/PSORun.lean`. -/
theorem C79_cpso (he : env.Ok) {a : CPSO.Args K} [CPSO.FewRestarts K a.p] {fn : Vec K a.ndim → Val K} (hfn : a.fn = some fn) {o : Output σ K a.p a.ndim}
    (h : CPSO.minimize env R srt fuel a g = .ok o) :
    ∃ S M gs hs, Spec.PSO.Run (cpsoSetting R srt a fn) a.x0Pop (a.seeded R g) (reporting a.toCommonArgs) S M gs hs o.res.nit o.res.status o := by
  obtain ⟨fn', P, s0, r, L, hfn', hv, hobj, hcons, hPR, hsrt, hw, h1, h2, hγ, hlo, hup, hm, hx, hft, hinit, hrun, rfl⟩ := CPSO.minimize_ok he h
  obtain rfl : fn' = fn := Option.some.inj (hfn'.symm.trans hfn)
  obtain ⟨-, -, -, hp, -⟩ := CPSO.validate_ok hv
  refine CPSO.run_of (c := cpsoSetting R srt a fn') (sync := a.sync) ⟨hPR, hsrt, ?_, hw, h1, h2, hγ, ?_, hlo, hup, hm, hx, hft, hobj⟩
    (by show 2 ≤ a.popsize.toNat; omega) hinit hrun
  · exact sync_iff.symm
  · show P.cons = .shrink ↔ a.constraints = some "Shrink"
    rcases CPSO.consMap_cases hcons with ⟨h1, h2⟩ | ⟨h1, h2⟩ <;> simp [h1, h2]

/-- C79: every run of `pso` is a run of the same description without competitivity. -/
theorem C79_pso (he : env.Ok) {a : PSO.Args K} [CPSO.FewRestarts K a.toCPSO.p] {fn : Vec K a.ndim → Val K} (hfn : a.fn = some fn) {o : Output σ K a.p a.ndim}
    (h : PSO.minimize env R srt fuel a g = .ok o) :
    ∃ S M gs hs, Spec.PSO.Run (psoSetting R srt a fn) a.x0Pop (a.seeded R g) (reporting a.toCommonArgs) S M gs hs o.res.nit o.res.status o :=
  C79_cpso (a := a.toCPSO) he hfn h

/-- In a run of `pso` no particle is ever moved between generations. -/
theorem C79_pso_norestart (he : env.Ok) {a : PSO.Args K} [CPSO.FewRestarts K a.toCPSO.p] {fn : Vec K a.ndim → Val K} (hfn : a.fn = some fn) {o : Output σ K a.p a.ndim}
    (h : PSO.minimize env R srt fuel a g = .ok o) :
    ∃ S M gs hs, Spec.PSO.Run (psoSetting R srt a fn) a.x0Pop (a.seeded R g) (reporting a.toCommonArgs) S M gs hs o.res.nit o.res.status o ∧
      ∀ k, k + 1 < o.res.nit → M k = S k ∧ hs k = gs k := by
  obtain ⟨S, M, gs, hs, hr⟩ := C79_pso he hfn h
  exact ⟨S, M, gs, hs, hr, fun k hk => hr.norestart k hk (Or.inr fun nw ⟨_, γ, hγ, _⟩ => by cases hγ)⟩

/-- C79: the description leaves no freedom: at most one output meets it. -/
theorem C79_unique {p n : Nat} {c : Spec.PSO.Setting σ K n} {x0 : Option (Pop K p n)} {rep : Reporting} {S M S' M' : Nat → Spec.PSO.Swarm K p n}
    {gs hs gs' hs' : Nat → σ} {nit nit' : Nat} {st st' : Int} {o o' : Output σ K p n}
    (h : Spec.PSO.Run c x0 g rep S M gs hs nit st o) (h' : Spec.PSO.Run c x0 g rep S' M' gs' hs' nit' st' o') : o = o' :=
  CPSO.run_unique h h'

/-- A run with immediate updating and shrinking from a given swarm in which particles are restarted after the second generation. -/
example : ∃ (o : Output Nat ℚ collapsed.p collapsed.ndim) (S M : Nat → Spec.PSO.Swarm ℚ collapsed.p collapsed.ndim) (gs hs : Nat → Nat),
    ¬ (cpsoSetting rng stableArgsort collapsed sphere2).deferred ∧ (cpsoSetting rng stableArgsort collapsed sphere2).shrink ∧
    collapsed.x0Pop.isSome ∧
    Spec.PSO.Run (cpsoSetting rng stableArgsort collapsed sphere2) collapsed.x0Pop (collapsed.seeded rng 0) (reporting collapsed.toCommonArgs)
      S M gs hs o.res.nit o.res.status o ∧
    3 ≤ o.res.nit ∧ ∃ nw, 2 ≤ nw ∧ Spec.PSO.Due (cpsoSetting rng stableArgsort collapsed sphere2) 2 (S 1) nw := by
  obtain ⟨o, ho, ht⟩ := returns_iff (r := CPSO.minimize Concrete.env rng stableArgsort 10 collapsed 0) (t := fun o =>
    decide (3 ≤ o.res.nit) && match o.cbs[1]? with
      | some b => decide (∃ m, (∀ i, NumFns.sqrt (∑ j, (b.X i j - b.x j) ^ 2) ≤ NumFns.sqrt (∑ j, (b.X m j - b.x j) ^ 2)) ∧
          NumFns.sqrt (∑ j, (b.X m j - b.x j) ^ 2) / NumFns.sqrt (4 * ((2 : Nat) : ℚ)) <
          NumFns.log (1 + 3 / 1000 * ((5 : Nat) : ℚ)) / max (2 / 10) (NumFns.log (1 / 100 * (collapsed.maxiter : ℚ))))
      | _ => false) (by decide +kernel)
  rw [Bool.and_eq_true, decide_eq_true_iff] at ht
  obtain ⟨S, M, gs, hs, hS⟩ := C79_cpso env_ok (a := collapsed) rfl ho
  refine ⟨o, S, M, gs, hs, by simp [cpsoSetting, Deferred, collapsed, cpsoArgs, common], rfl, rfl, hS, ht.1, 3, by omega, by omega, 2, rfl, by norm_num, ?_, by decide +kernel⟩
  revert ht
  split
  · rename_i b hb
    rw [decide_eq_true_iff]
    rintro ⟨-, ht⟩
    have h1 := hS.report.callback 1 b hb
    unfold Spec.PSO.away
    rw [← h1.1, ← h1.2.1]
    exact ht
  · simp

/-- A run of `pso` with deferred updating in which the best point changes. -/
example : ∃ (o : Output Nat ℚ psoArgs.p psoArgs.ndim) (S M : Nat → Spec.PSO.Swarm ℚ psoArgs.p psoArgs.ndim) (gs hs : Nat → Nat),
    (psoSetting rng stableArgsort psoArgs sphere2).deferred ∧
    Spec.PSO.Run (psoSetting rng stableArgsort psoArgs sphere2) psoArgs.x0Pop (psoArgs.seeded rng 0) (reporting psoArgs.toCommonArgs)
      S M gs hs o.res.nit o.res.status o ∧
    3 ≤ o.res.nit ∧ (S 0).pool.best ≠ (S (o.res.nit - 1)).pool.best := by
  obtain ⟨o, ho, ht⟩ := returns_iff (r := PSO.minimize Concrete.env rng stableArgsort 10 psoArgs 0) (t := fun o =>
    decide (3 ≤ o.res.nit) && match o.cbs[0]? with
      | some b => decide (b.x ≠ o.res.x)
      | _ => false) (by decide +kernel)
  rw [Bool.and_eq_true, decide_eq_true_iff] at ht
  obtain ⟨S, M, gs, hs, hS⟩ := C79_pso env_ok (a := psoArgs) rfl ho
  refine ⟨o, S, M, gs, hs, by simp [psoSetting, Deferred, psoArgs], hS, ht.1, ?_⟩
  revert ht
  split
  · rename_i b hb
    rw [decide_eq_true_iff]
    rintro ⟨-, ht⟩
    rw [← hS.report.x, ← (hS.report.callback 0 b hb).2.1]
    exact ht
  · simp

end Stochopy
