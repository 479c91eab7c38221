import Verif.Lemmas.EvoStop
import Verif.Props.EvoRuns

/-!
# C39: which stopping tests of `cmaes` and `vdcma` can fire

The tests EqualFunValues and TolFun look at `arbestfitness[it - ilim : it + 1]` and `arbestfitness`, which contain entries
that are still 0, so that they compare the values with 0 instead of with each other.
-/

set_option linter.unusedSectionVars false

namespace Stochopy.Props
open Evo Spec Concrete
variable {K σ : Type} [Field K] [LinearOrder K] [IsStrictOrderedRing K] [NumFns K] [FloorRing K] {env : Env} {R : Rng σ K}
  {srt : Argsort K} {eigh : CMAES.Eigh K} {fuel : Nat} {g : σ} {a : Args K} {junk : Vec K a.ndim} {o : Output σ K a.p a.ndim}

theorem rangeTests {S : Type} {p n : Nat} {P : Par K n} {G : Gauss S K p n} {c : Cfg} {rng : S → σ} {I : St S K p n → Prop}
    {o : Output σ K p n} {gs : List (Gen K p n)} {g : Gen K p n} {L' L : St S K p n} {st : Int}
    (hi : 0 < P.ilim) (h : Completed P G c rng I o gs g L' L st) : RangeTests P.ilim o := by
  have hf : o.res.fval = g.fit g.best := by obtain ⟨msg, -, hr⟩ := h.res; rw [hr]
  have hlast : (gs ++ [g])[o.res.nit - 1]? = some g := by rw [h.nit]; simp
  constructor
  · intro h5
    obtain ⟨k1, k2, -⟩ := h.stops_range.1 h5
    have key := h.equalFun h5
    refine ⟨k2, ?_, fun b hb hn => ?_⟩
    · rw [hf]; exact key _ (by omega) g hlast
    · obtain ⟨k, g', hg', -, -, b4, b6⟩ := h.cbMem hb
      rw [b4]
      exact key k (by omega) g' hg'
  · intro h7
    obtain ⟨k1, k2, -⟩ := h.stops_range.2.1 h7
    have key := (h.tolFun h7).2
    refine ⟨k2, ?_, fun b hb => ?_⟩
    · rw [hf]; exact key g (by simp)
    · obtain ⟨k, g', hg', -, -, b4, b6⟩ := h.cbMem hb
      rw [b4]
      exact key g' (List.mem_of_getElem? hg')

theorem C39_cmaes_partial (he : env.Ok) (h : CMAES.minimize env R srt eigh fuel a junk g = .ok o) : RangeTests a.ilim o := by
  obtain ⟨fn, obj, pen, m, hd, hfn, hv, hobj, hb, hc, hm, hrun⟩ := CMAES.minimize_ok he h
  obtain ⟨gs, gn, L', L, st, H⟩ := run_gens hrun
  exact rangeTests (Nat.add_pos_left (by norm_num) _) H

theorem C39_vdcma_partial (he : env.Ok) (h : VDCMA.minimize env R srt fuel a junk g = .ok o) : RangeTests a.ilim o := by
  obtain ⟨fn, obj, pen, m, hd, hfn, hv, hobj, hb, hc, hm, hrun⟩ := VDCMA.minimize_ok he h
  obtain ⟨gs, gn, L', L, st, H⟩ := run_gens hrun
  exact rangeTests (Nat.add_pos_left (by norm_num) _) H

/-- A value below the threshold has already stopped the run when `ftol` is at least the threshold. -/
theorem not_range {p n : Nat} {maxiter : Int} {ilim : Nat} {ftol : Val K} {o : Output σ K p n} (hs : StatusEvo maxiter ftol o)
    (hr : RangeTests ilim o) (hn : (o.res.nit : Int) ≤ maxiter) :
    (.fin (1 / 10 ^ 10) ≤ ftol → o.res.status ≠ -5) ∧ (.fin (1 / 10 ^ 12) ≤ ftol → o.res.status ≠ -7) := by
  have key : ∀ e : K, Below o.res.fval e → .fin e ≤ ftol → o.res.status ≠ -1 → o.res.status = 0 ∨ o.res.status = 1 := by
    rintro e ⟨b, hb, he⟩ hle h1
    refine hs.success.1 (hs.reached.2 ⟨?_, lt_of_le_of_ne hn (mt hs.budget.2 h1)⟩)
    rw [hb]
    exact Val.le_trans' (show Val.fin b ≤ Val.fin e from ((le_abs_self b).trans_lt he).le) hle
  constructor
  · intro hle h5
    rcases key _ (hr.equalFun h5).2.1 hle (by omega) with h | h <;> omega
  · intro hle h7
    rcases key _ (hr.tolFun h7).2.1 hle (by omega) with h | h <;> omega

/-- With `ftol ≥ 1e-10`, in particular with the default 1e-8, EqualFunValues and TolFun never stop a run, however constant
the objective. -/
theorem C39_cmaes_violated (he : env.Ok) (hf : .fin (1 / 10 ^ 10) ≤ a.ftol)
    (h : CMAES.minimize env R srt eigh fuel a junk g = .ok o) : o.res.status ≠ -5 ∧ o.res.status ≠ -7 := by
  obtain ⟨h5, h7⟩ := not_range (C40_cmaes he h) (C39_cmaes_partial he h) (C05_cmaes he h).2
  refine ⟨h5 hf, h7 (Val.le_trans' ?_ hf)⟩
  show (1 / 10 ^ 12 : K) ≤ 1 / 10 ^ 10
  norm_num

/-- Nor do they in `vdcma`, where NoEffectAxis and ConditionCov are not tested at all. -/
theorem C39_vdcma_violated (he : env.Ok) (hf : .fin (1 / 10 ^ 10) ≤ a.ftol)
    (h : VDCMA.minimize env R srt fuel a junk g = .ok o) : o.res.status ≠ -5 ∧ o.res.status ≠ -7 := by
  obtain ⟨h5, h7⟩ := not_range (C40_vdcma he h) (C39_vdcma_partial he h) (C05_vdcma he h).2
  refine ⟨h5 hf, h7 (Val.le_trans' ?_ hf)⟩
  show (1 / 10 ^ 12 : K) ≤ 1 / 10 ^ 10
  norm_num

theorem C39_vdcma_axes_violated (he : env.Ok) (h : VDCMA.minimize env R srt fuel a junk g = .ok o) :
    o.res.status ≠ -2 ∧ o.res.status ≠ -4 := by
  obtain ⟨fn, obj, pen, m, hd, hfn, hv, hobj, hb, hc, hm, hrun⟩ := VDCMA.minimize_ok he h
  obtain ⟨gs, gn, L', L, st, H⟩ := run_gens hrun
  exact H.stops_range.2.2 fun _ => rfl

/-- The default `ftol`. -/
example : (Val.fin (1 / 10 ^ 10) : Val ℚ) ≤ .fin (1 / 10 ^ 8) := by decide +kernel

/-- A run with an `ftol` above the threshold. -/
theorem _root_.Stochopy.Concrete.stop_run :
    ∃ o, CMAES.minimize Concrete.env rng stableArgsort eighDiag 10 { evoArgs with ftol := .fin (1 / 10 ^ 8) } junk0 0 = .ok o ∧
      improves o = true :=
  returns_iff (by decide +kernel)

/-- The test `converge` after 12 generations in 2 dimensions with `maxiter = 20`: the best values 1 of all generations do not
satisfy EqualFunValues, because of the entry that is not filled yet … -/
example : converge (p := 2) (n := 2) 12 20 (fun _ => 0) (fun _ => 1) (List.replicate 12 (.fin 1) ++ List.replicate 8 (.fin 0))
    (fun _ => .fin 1) (.fin 1) (1 : ℚ) 1 10 (fun _ => 1) 0 (.fin (-1)) (fun _ => 1) none = none := by decide +kernel
/-- … the best values 0 do … -/
example : converge (p := 2) (n := 2) 12 20 (fun _ => 0) (fun _ => 1) (List.replicate 20 (.fin 0))
    (fun _ => .fin 1) (.fin 0) (1 : ℚ) 1 10 (fun _ => 1) 0 (.fin (-1)) (fun _ => 1) none = some (-5) := by decide +kernel
/-- … and TolFun fires earlier in that case, when the whole last generation has the value 0. -/
example : converge (p := 2) (n := 2) 3 20 (fun _ => 0) (fun _ => 1) (List.replicate 20 (.fin 0))
    (fun _ => .fin 0) (.fin 0) (1 : ℚ) 1 10 (fun _ => 1) 0 (.fin (-1)) (fun _ => 1) none = some (-7) := by decide +kernel
/-- The two axis tests of `cmaes`. -/
example : converge (p := 2) (n := 2) 3 20 (fun _ => 0) (fun _ => 1) (List.replicate 20 (.fin 0))
    (fun _ => .fin 1) (.fin 1) (1 : ℚ) 1 10 (fun _ => 1) 0 (.fin (-1)) (fun _ => 1) (some (1, fun _ => 0)) = some (-2) := by
  decide +kernel
example : converge (p := 2) (n := 2) 3 20 (fun _ => 0) (fun _ => 1) (List.replicate 20 (.fin 0))
    (fun _ => .fin 1) (.fin 1) (1 : ℚ) 1 10 (fun _ => 1) 0 (.fin (-1)) (fun _ => 1) (some (1, ![1, 10 ^ 8])) = some (-4) := by
  decide +kernel

end Stochopy.Props
