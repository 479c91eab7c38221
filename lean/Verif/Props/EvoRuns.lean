import Verif.Lemmas.EvoRun
import Verif.Lemmas.Backend
import Verif.Props.Concrete

/-!
# `cmaes` and `vdcma`: counting, budget, callbacks, history, status, backends, seeds
-/

set_option linter.unusedSectionVars false

namespace Stochopy.Props
open Evo Spec Concrete
variable {K σ : Type} [AddZeroClass K] [One K] [Sub K] [Mul K] [Div K] [Neg K] [NatCast K] [IntCast K] [Pow K ℕ] [ArrayOps K] [LinearOrder K] [NumFns K] [IntParts K] {env : Env} {R : Rng σ K} {srt : Argsort K}
  {eigh : CMAES.Eigh K} {fuel : Nat} {g : σ} {a : Args K} {junk : Vec K a.ndim} {o : Output σ K a.p a.ndim}

/-! ## Concrete runs

Six individuals, three parents, two dimensions; `eigh` is exact on diagonal matrices. -/

/-- Eigenvalues and eigenvectors of diagonal matrices. -/
def _root_.Stochopy.Concrete.eighDiag : CMAES.Eigh ℚ := fun _ C => (fun i => C i i, 1)

def _root_.Stochopy.Concrete.evoArgs : Args ℚ :=
  { common with popsize := 6, maxiter := 3, sigma := 1 / 10, muperc := 1 / 2, constraints := none, ftol := .fin 0 }

/-- A memory content. -/
def _root_.Stochopy.Concrete.junk0 : Vec ℚ 2 := fun _ => 0

theorem _root_.Stochopy.Concrete.cmaes_run :
    ∃ o, CMAES.minimize Concrete.env rng stableArgsort eighDiag 10 evoArgs junk0 0 = .ok o ∧ improves o = true :=
  returns_iff (by decide +kernel)

theorem _root_.Stochopy.Concrete.vdcma_run :
    ∃ o, VDCMA.minimize Concrete.env rng stableArgsort 10 evoArgs junk0 0 = .ok o ∧ improves o = true :=
  returns_iff (by decide +kernel)

/-! ## C04, C05, C09, C10, C11, C14 -/

theorem C04_cmaes (he : env.Ok) (h : CMAES.minimize env R srt eigh fuel a junk g = .ok o) :
    CountsExact o := by
  obtain ⟨fn, obj, pen, m, hd, hfn, hv, hobj, hb, hc, hm, hrun⟩ := CMAES.minimize_ok he h
  obtain ⟨gs, gn, L', L, st, H⟩ := run_gens hrun
  exact H.counts

theorem C04_vdcma (he : env.Ok) (h : VDCMA.minimize env R srt fuel a junk g = .ok o) :
    CountsExact o := by
  obtain ⟨fn, obj, pen, m, hd, hfn, hv, hobj, hb, hc, hm, hrun⟩ := VDCMA.minimize_ok he h
  obtain ⟨gs, gn, L', L, st, H⟩ := run_gens hrun
  exact H.counts

theorem C05_cmaes (he : env.Ok) (h : CMAES.minimize env R srt eigh fuel a junk g = .ok o) :
    1 ≤ o.res.nit ∧ (o.res.nit : Int) ≤ a.maxiter := by
  obtain ⟨fn, obj, pen, m, hd, hfn, hv, hobj, hb, hc, hm, hrun⟩ := CMAES.minimize_ok he h
  obtain ⟨gs, gn, L', L, st, H⟩ := run_gens hrun
  exact ⟨by rw [H.nit]; omega, H.budget⟩

theorem C05_vdcma (he : env.Ok) (h : VDCMA.minimize env R srt fuel a junk g = .ok o) :
    1 ≤ o.res.nit ∧ (o.res.nit : Int) ≤ a.maxiter := by
  obtain ⟨fn, obj, pen, m, hd, hfn, hv, hobj, hb, hc, hm, hrun⟩ := VDCMA.minimize_ok he h
  obtain ⟨gs, gn, L', L, st, H⟩ := run_gens hrun
  exact ⟨by rw [H.nit]; omega, H.budget⟩

theorem C05_cmaes_terminates (hf : 0 < fuel) (hm : a.maxiter ≤ fuel) :
    CMAES.minimize env R srt eigh fuel a junk g ≠ .error .outOfFuel ∧
    ∀ fuel', fuel ≤ fuel' → CMAES.minimize env R srt eigh fuel' a junk g = CMAES.minimize env R srt eigh fuel a junk g := by
  unfold CMAES.minimize
  cases hv : a.validate with
  | error e =>
    rw [error_bind']
    exact ⟨fun h => validate_ne (a := a) (by rw [hv]; cases h; rfl), fun _ _ => rfl⟩
  | ok u =>
    rw [ok_bind']
    cases hfn : a.fn with
    | none => exact ⟨by simp, fun _ _ => rfl⟩
    | some fn =>
      dsimp only
      refine ⟨optimizer_ne_outOfFuel fun obj h => ?_, fun fuel' hle => ?_⟩
      · rw [bind_error_iff] at h
        rcases h with h | ⟨u1, -, h⟩
        · exact unpackBounds_ne _ h
        rw [bind_error_iff] at h
        rcases h with h | ⟨pen, -, h⟩
        · exact consMap_ne h
        rw [bind_error_iff] at h
        rcases h with h | ⟨m, -, h⟩
        · exact firstMean_ne h
        split_ifs at h
        · exact (Evo.run_fuel CMAES.noFuelErr hf hm).1 h
        · cases h
      · rw [ok_bind']
        congr 1
        funext obj
        congr 1; funext _; congr 1; funext pen; congr 1; funext m
        split_ifs
        · exact (Evo.run_fuel CMAES.noFuelErr hf hm).2 fuel' hle
        · rfl

theorem C05_vdcma_terminates (hf : 0 < fuel) (hm : a.maxiter ≤ fuel) :
    VDCMA.minimize env R srt fuel a junk g ≠ .error .outOfFuel ∧
    ∀ fuel', fuel ≤ fuel' → VDCMA.minimize env R srt fuel' a junk g = VDCMA.minimize env R srt fuel a junk g := by
  unfold VDCMA.minimize
  cases hv : a.validate with
  | error e =>
    rw [error_bind']
    exact ⟨fun h => validate_ne (a := a) (by rw [hv]; cases h; rfl), fun _ _ => rfl⟩
  | ok u =>
    rw [ok_bind']
    cases hfn : a.fn with
    | none => exact ⟨by simp, fun _ _ => rfl⟩
    | some fn =>
      dsimp only
      refine ⟨optimizer_ne_outOfFuel fun obj h => ?_, fun fuel' hle => ?_⟩
      · rw [bind_error_iff] at h
        rcases h with h | ⟨u1, -, h⟩
        · exact unpackBounds_ne _ h
        rw [bind_error_iff] at h
        rcases h with h | ⟨pen, -, h⟩
        · exact consMap_ne h
        rw [bind_error_iff] at h
        rcases h with h | ⟨m, -, h⟩
        · exact firstMean_ne h
        split_ifs at h
        · exact (Evo.run_fuel VDCMA.noFuelErr hf hm).1 h
        · cases h
      · rw [ok_bind']
        congr 1
        funext obj
        congr 1; funext _; congr 1; funext pen; congr 1; funext m
        split_ifs
        · exact (Evo.run_fuel VDCMA.noFuelErr hf hm).2 fuel' hle
        · rfl

theorem C09_cmaes (he : env.Ok) (h : CMAES.minimize env R srt eigh fuel a junk g = .ok o) :
    (a.callback = some true → CallbackProtocol o) ∧ (a.callback = none → o.cbs = []) := by
  obtain ⟨fn, obj, pen, m, hd, hfn, hv, hobj, hb, hc, hm, hrun⟩ := CMAES.minimize_ok he h
  obtain ⟨gs, gn, L', L, st, H⟩ := run_gens hrun
  exact ⟨fun hcb => H.callbacks (by simp [CommonArgs.cfg, hcb]), fun hcb => H.noCallbacks (by simp [CommonArgs.cfg, hcb])⟩

theorem C09_vdcma (he : env.Ok) (h : VDCMA.minimize env R srt fuel a junk g = .ok o) :
    (a.callback = some true → CallbackProtocol o) ∧ (a.callback = none → o.cbs = []) := by
  obtain ⟨fn, obj, pen, m, hd, hfn, hv, hobj, hb, hc, hm, hrun⟩ := VDCMA.minimize_ok he h
  obtain ⟨gs, gn, L', L, st, H⟩ := run_gens hrun
  exact ⟨fun hcb => H.callbacks (by simp [CommonArgs.cfg, hcb]), fun hcb => H.noCallbacks (by simp [CommonArgs.cfg, hcb])⟩

theorem C10_cmaes (he : env.Ok) (h : CMAES.minimize env R srt eigh fuel a junk g = .ok o) :
    (a.returnAll = true → HistoryShape (max 1 (IntParts.ceil (a.verbosity * (a.popsize : K))).toNat) o) ∧
    (a.returnAll = false → o.res.xall = none ∧ o.res.funall = none) := by
  obtain ⟨fn, obj, pen, m, hd, hfn, hv, hobj, hb, hc, hm, hrun⟩ := CMAES.minimize_ok he h
  obtain ⟨gs, gn, L', L, st, H⟩ := run_gens hrun
  exact ⟨fun hr => H.shape hr, fun hr => H.noHistory hr⟩

theorem C10_vdcma (he : env.Ok) (h : VDCMA.minimize env R srt fuel a junk g = .ok o) :
    (a.returnAll = true → HistoryShape (max 1 (IntParts.ceil (a.verbosity * (a.popsize : K))).toNat) o) ∧
    (a.returnAll = false → o.res.xall = none ∧ o.res.funall = none) := by
  obtain ⟨fn, obj, pen, m, hd, hfn, hv, hobj, hb, hc, hm, hrun⟩ := VDCMA.minimize_ok he h
  obtain ⟨gs, gn, L', L, st, H⟩ := run_gens hrun
  exact ⟨fun hr => H.shape hr, fun hr => H.noHistory hr⟩

theorem C11_cmaes (he : env.Ok) (h : CMAES.minimize env R srt eigh fuel a junk g = .ok o) (hc0 : a.constraints = none) {fn : Vec K a.ndim → Val K}
    (hf : a.fn = some fn) :
    HistoryMatches fn o := by
  obtain ⟨fn', obj, pen, m, hd, hfn, hv, hobj, hb, hc, hm, hrun⟩ := CMAES.minimize_ok he h
  obtain ⟨gs, gn, L', L, st, H⟩ := run_gens hrun
  rw [hf] at hfn; cases hfn
  exact H.matches hobj (consMap_none hc0 hc)

theorem C11_vdcma (he : env.Ok) (h : VDCMA.minimize env R srt fuel a junk g = .ok o) (hc0 : a.constraints = none) {fn : Vec K a.ndim → Val K}
    (hf : a.fn = some fn) :
    HistoryMatches fn o := by
  obtain ⟨fn', obj, pen, m, hd, hfn, hv, hobj, hb, hc, hm, hrun⟩ := VDCMA.minimize_ok he h
  obtain ⟨gs, gn, L', L, st, H⟩ := run_gens hrun
  rw [hf] at hfn; cases hfn
  exact H.matches hobj (consMap_none hc0 hc)

/-- `maxiter=1` is honoured by these two. -/
theorem C14_cmaes (he : env.Ok) (h : CMAES.minimize env R srt eigh fuel a junk g = .ok o) (hm1 : a.maxiter = 1) :
    o.res.nit = 1 ∧ o.evals.length = a.p ∧
    (a.returnAll = true → HistoryShape (max 1 (IntParts.ceil (a.verbosity * (a.popsize : K))).toNat) o) := by
  have h5 := C05_cmaes he h
  have h4 := C04_cmaes he h
  have h10 := C10_cmaes he h
  have hn : o.res.nit = 1 := by omega
  refine ⟨hn, ?_, h10.1⟩
  rw [← h4.1, h4.2.1, hn, Nat.mul_one]

theorem C14_vdcma (he : env.Ok) (h : VDCMA.minimize env R srt fuel a junk g = .ok o) (hm1 : a.maxiter = 1) :
    o.res.nit = 1 ∧ o.evals.length = a.p ∧
    (a.returnAll = true → HistoryShape (max 1 (IntParts.ceil (a.verbosity * (a.popsize : K))).toNat) o) := by
  have h5 := C05_vdcma he h
  have h4 := C04_vdcma he h
  have h10 := C10_vdcma he h
  have hn : o.res.nit = 1 := by omega
  refine ⟨hn, ?_, h10.1⟩
  rw [← h4.1, h4.2.1, hn, Nat.mul_one]

/-- Histories, callbacks and budgets that exist. -/
example : ∃ o, CMAES.minimize Concrete.env rng stableArgsort eighDiag 10 { evoArgs with maxiter := 1 } junk0 0 = .ok o := by
  obtain ⟨o, h, -⟩ := returns_iff (r := CMAES.minimize Concrete.env rng stableArgsort eighDiag 10 { evoArgs with maxiter := 1 } junk0 0)
    (t := fun _ => true) (by decide +kernel)
  exact ⟨o, h⟩

/-! ## C01, C38: which point is reported -/

theorem C01_cmaes (he : env.Ok) (h : CMAES.minimize env R srt eigh fuel a junk g = .ok o) (hc0 : a.constraints = none) {fn : Vec K a.ndim → Val K}
    (hf : a.fn = some fn) (hs : IsArgsort srt) :
    ReportsEvaluatedPoint fn o := by
  obtain ⟨fn', obj, pen, m, hd, hfn, hv, hobj, hb, hc, hm, hrun⟩ := CMAES.minimize_ok he h
  obtain ⟨gs, gn, L', L, st, H⟩ := run_gens hrun
  rw [hf] at hfn; cases hfn
  exact (H.lastGen hobj (consMap_none hc0 hc) hs).1

theorem C01_vdcma (he : env.Ok) (h : VDCMA.minimize env R srt fuel a junk g = .ok o) (hc0 : a.constraints = none) {fn : Vec K a.ndim → Val K}
    (hf : a.fn = some fn) (hs : IsArgsort srt) :
    ReportsEvaluatedPoint fn o := by
  obtain ⟨fn', obj, pen, m, hd, hfn, hv, hobj, hb, hc, hm, hrun⟩ := VDCMA.minimize_ok he h
  obtain ⟨gs, gn, L', L, st, H⟩ := run_gens hrun
  rw [hf] at hfn; cases hfn
  exact (H.lastGen hobj (consMap_none hc0 hc) hs).1

/-- The result is the best point of the last generation only (not of the run, see `C38_violated`). -/
theorem C38_cmaes_partial (he : env.Ok) (h : CMAES.minimize env R srt eigh fuel a junk g = .ok o) (hc0 : a.constraints = none) {fn : Vec K a.ndim → Val K}
    (hf : a.fn = some fn) (hs : IsArgsort srt) :
    BestOfLastGeneration fn o ∧ CallbacksReportBest fn o := by
  obtain ⟨fn', obj, pen, m, hd, hfn, hv, hobj, hb, hc, hm, hrun⟩ := CMAES.minimize_ok he h
  obtain ⟨gs, gn, L', L, st, H⟩ := run_gens hrun
  rw [hf] at hfn; cases hfn
  obtain ⟨h1, h2⟩ := H.lastGen hobj (consMap_none hc0 hc) hs
  refine ⟨⟨h1, ?_, h2⟩, H.cbBest hobj (consMap_none hc0 hc) hs⟩
  unfold lastGeneration
  rw [H.lastEvals, List.length_ofFn]

theorem C38_vdcma_partial (he : env.Ok) (h : VDCMA.minimize env R srt fuel a junk g = .ok o) (hc0 : a.constraints = none) {fn : Vec K a.ndim → Val K}
    (hf : a.fn = some fn) (hs : IsArgsort srt) :
    BestOfLastGeneration fn o ∧ CallbacksReportBest fn o := by
  obtain ⟨fn', obj, pen, m, hd, hfn, hv, hobj, hb, hc, hm, hrun⟩ := VDCMA.minimize_ok he h
  obtain ⟨gs, gn, L', L, st, H⟩ := run_gens hrun
  rw [hf] at hfn; cases hfn
  obtain ⟨h1, h2⟩ := H.lastGen hobj (consMap_none hc0 hc) hs
  refine ⟨⟨h1, ?_, h2⟩, H.cbBest hobj (consMap_none hc0 hc) hs⟩
  unfold lastGeneration
  rw [H.lastEvals, List.length_ofFn]

/-- The returned value is larger than a value seen before. -/
def worse {p n : Nat} (fn : Vec ℚ n → Val ℚ) (o : Output Nat ℚ p n) : Bool := o.evals.any fun x => decide (fn x < o.res.fval)

theorem C38_violated :
    (∃ o, CMAES.minimize Concrete.env rng stableArgsort eighDiag 10 { evoArgs with sigma := 1 / 2 } junk0 0 = .ok o ∧ ¬ BestOfRun sphere2 o) ∧
    (∃ o, VDCMA.minimize Concrete.env rng stableArgsort 10 { evoArgs with sigma := 1 } junk0 0 = .ok o ∧ ¬ BestOfRun sphere2 o) := by
  have key : ∀ {p : Nat} (o : Output Nat ℚ p 2), worse sphere2 o = true → ¬ BestOfRun sphere2 o := by
    intro p o h hb
    unfold worse at h
    rw [List.any_eq_true] at h
    obtain ⟨x, hx, h⟩ := h
    rw [decide_eq_true_iff] at h
    exact Val.not_lt_of_le' (hb x hx (by simp [sphere2])) h
  constructor
  · obtain ⟨o, h, ht⟩ := returns_iff (t := worse sphere2)
      (r := CMAES.minimize Concrete.env rng stableArgsort eighDiag 10 { evoArgs with sigma := 1 / 2 } junk0 0) (by decide +kernel)
    exact ⟨o, h, key o ht⟩
  · obtain ⟨o, h, ht⟩ := returns_iff (t := worse sphere2)
      (r := VDCMA.minimize Concrete.env rng stableArgsort 10 { evoArgs with sigma := 1 } junk0 0) (by decide +kernel)
    exact ⟨o, h, key o ht⟩

/-! ## C08, C40: status -/

theorem C40_cmaes (he : env.Ok) (h : CMAES.minimize env R srt eigh fuel a junk g = .ok o) :
    StatusEvo a.maxiter a.ftol o := by
  obtain ⟨fn, obj, pen, m, hd, hfn, hv, hobj, hb, hc, hm, hrun⟩ := CMAES.minimize_ok he h
  obtain ⟨gs, gn, L', L, st, H⟩ := run_gens hrun
  exact H.statusEvo

theorem C40_vdcma (he : env.Ok) (h : VDCMA.minimize env R srt fuel a junk g = .ok o) :
    StatusEvo a.maxiter a.ftol o := by
  obtain ⟨fn, obj, pen, m, hd, hfn, hv, hobj, hb, hc, hm, hrun⟩ := VDCMA.minimize_ok he h
  obtain ⟨gs, gn, L', L, st, H⟩ := run_gens hrun
  exact H.statusEvo

/-- The run stops at the first generation that reaches `ftol`. -/
theorem C08_cmaes (he : env.Ok) (h : CMAES.minimize env R srt eigh fuel a junk g = .ok o) :
    StopsWhenReached a.ftol o := by
  obtain ⟨fn, obj, pen, m, hd, hfn, hv, hobj, hb, hc, hm, hrun⟩ := CMAES.minimize_ok he h
  obtain ⟨gs, gn, L', L, st, H⟩ := run_gens hrun
  exact H.stops

theorem C08_vdcma (he : env.Ok) (h : VDCMA.minimize env R srt fuel a junk g = .ok o) :
    StopsWhenReached a.ftol o := by
  obtain ⟨fn, obj, pen, m, hd, hfn, hv, hobj, hb, hc, hm, hrun⟩ := VDCMA.minimize_ok he h
  obtain ⟨gs, gn, L', L, st, H⟩ := run_gens hrun
  exact H.stops

/-- Status 1, 0 and -1 all occur. -/
example : [Val.fin 10, Val.fin 0].map (fun f => returns (CMAES.minimize Concrete.env rng stableArgsort eighDiag 10 { evoArgs with ftol := f } junk0 0)
    fun o => decide (o.res.status = 1)) = [true, false] ∧
    returns (CMAES.minimize Concrete.env rng stableArgsort eighDiag 10 { evoArgs with ftol := .fin 0 } junk0 0)
      (fun o => decide (o.res.status = -1)) = true ∧
    returns (CMAES.minimize Concrete.env rng stableArgsort eighDiag 10 { evoArgs with ftol := .fin 10, xtol := 10 } junk0 0)
      (fun o => decide (o.res.status = 0)) = true := by decide +kernel

/-! ## C23, C31: backends and seeds -/

theorem C23_cmaes (he : env.Ok) (hm : a.backend = some "mpi" → env.mpi4py = true) :
    CMAES.minimize env R srt eigh fuel a junk g = CMAES.minimize env R srt eigh fuel { a with workers := 1, backend := none } junk g := by
  unfold CMAES.minimize
  have hv : Args.validate { a with workers := 1, backend := none } = a.validate := rfl
  rw [hv]
  congr 1
  funext _
  dsimp only
  cases a.fn with
  | none => rfl
  | some fn => exact optimizer_congr he hm (by simp)

theorem C31_cmaes {s : Int} (hs : a.seed = some s) (g' : σ) :
    CMAES.minimize env R srt eigh fuel a junk g = CMAES.minimize env R srt eigh fuel a junk g' := by
  have h : a.seeded R g = a.seeded R g' := by unfold CommonArgs.seeded; rw [hs]
  unfold CMAES.minimize
  rw [h]

theorem C23_vdcma (he : env.Ok) (hm : a.backend = some "mpi" → env.mpi4py = true) :
    VDCMA.minimize env R srt fuel a junk g = VDCMA.minimize env R srt fuel { a with workers := 1, backend := none } junk g := by
  unfold VDCMA.minimize
  have hv : Args.validate { a with workers := 1, backend := none } = a.validate := rfl
  rw [hv]
  congr 1
  funext _
  dsimp only
  cases a.fn with
  | none => rfl
  | some fn => exact optimizer_congr he hm (by simp)

theorem C31_vdcma {s : Int} (hs : a.seed = some s) (g' : σ) :
    VDCMA.minimize env R srt fuel a junk g = VDCMA.minimize env R srt fuel a junk g' := by
  have h : a.seeded R g = a.seeded R g' := by unfold CommonArgs.seeded; rw [hs]
  unfold VDCMA.minimize
  rw [h]

end Stochopy.Props
