import Verif.Lemmas.Raise
import Verif.Lemmas.Validation
import Verif.Props.EvoRuns
import Verif.Props.Chains

/-!
# C113: callbacks that raise

`minimizeE … raises` is a call whose callback raises `raises k b`, if this is an exception, when it is called for the `k`-th time and shown `b`
(`Model/Raise.lean`).
-/

set_option linter.unusedSectionVars false

namespace Stochopy
open Spec Concrete

section optimizers
variable {K σ E : Type} [AddZeroClass K] [One K] [Sub K] [Mul K] [Div K] [Neg K] [NatCast K] [IntCast K] [Pow K ℕ] [ArrayOps K] [LinearOrder K] [IntParts K]
variable {env : Env} {R : Rng σ K} {srt : Argsort K} {fuel : Nat} {g : σ}

theorem Goes.interrupted {B V Z : Type} {raises : Nat → B → Option E} {req : Nat → Nat → Prop} {c0 : List B} {e0 : List V} {cbs : Z → List B} {ev : Z → List V}
    {x : Except PyErr Z} {y : Except PyErr (Z ⊕ Stop E B V)} (h : Goes raises req 0 c0 e0 cbs ev x y) : Interrupted raises req cbs ev x y := by
  have := h.int
  rwa [from'_zero] at this

theorem C113_de {a : DE.Args K} {raises : Nat → CB K a.p a.ndim → Option E} :
    Interrupted raises (fun k m => m = (k + 1) * a.p) Output.cbs Output.evals (DE.minimize env R fuel a g) (DE.minimizeE env R fuel a raises g) := by
  refine Goes.interrupted (c0 := []) (e0 := []) ?_
  unfold DE.minimize DE.minimizeE
  refine .bind fun strat hv => ?_
  cases a.fn with
  | none => exact .fail _
  | some fn =>
    dsimp only
    refine .optimizer fun obj => .bind fun _ _ => .bind fun cons _ => ?_
    unfold DE.de
    refine .bind fun s0 h0 => ?_
    refine run_goes (K := K) (S := DE.State σ K a.p a.ndim) (maxiter := a.maxiter) (p := a.p) (n := a.ndim)
      (out := fun r L => { res := r, cbs := L.cbs, evals := L.s.evals, x0After := L.s.caller, rng := L.s.rng }) ?_ ?_ ?_
    · exact DE.laws a.sync (DE.strategyMap_ne_outOfFuel (DE.validate_ok hv).2.2.2.2.2.2.2.2.1)
    swap
    · exact fun _ _ => ⟨rfl, rfl⟩
    obtain ⟨i, hi, rfl⟩ := DE.init_ok h0
    simp

theorem C113_cpso [NumFns K] {a : CPSO.Args K} {raises : Nat → CB K a.p a.ndim → Option E} :
    Interrupted raises (fun k m => m = (k + 1) * a.p) Output.cbs Output.evals (CPSO.minimize env R srt fuel a g)
      (CPSO.minimizeE env R srt fuel a raises g) := by
  refine Goes.interrupted (c0 := []) (e0 := []) ?_
  unfold CPSO.minimize CPSO.minimizeE
  refine .bind fun _ _ => ?_
  cases a.fn with
  | none => exact .fail _
  | some fn =>
    dsimp only
    refine .optimizer fun obj => .bind fun _ _ => .bind fun cons _ => ?_
    unfold CPSO.cpso
    refine .bind fun s0 h0 => ?_
    refine run_goes (K := K) (S := CPSO.State σ K a.p a.ndim) (maxiter := a.maxiter) (p := a.p) (n := a.ndim)
      (out := fun r L => { res := r, cbs := L.cbs, evals := L.s.evals, x0After := L.s.caller, rng := L.s.rng }) ?_ ?_ ?_
    · exact CPSO.laws a.sync
    swap
    · exact fun _ _ => ⟨rfl, rfl⟩
    obtain ⟨i, hi, rfl⟩ := CPSO.init_ok h0
    simp

theorem C113_pso [NumFns K] {a : PSO.Args K} {raises : Nat → CB K a.toCPSO.p a.toCPSO.ndim → Option E} :
    Interrupted raises (fun k m => m = (k + 1) * a.toCPSO.p) Output.cbs Output.evals (PSO.minimize env R srt fuel a g)
      (PSO.minimizeE env R srt fuel a raises g) :=
  C113_cpso (a := a.toCPSO)

theorem C113_na {a : NA.Args K} {raises : Nat → CB K a.p a.ndim → Option E} :
    Interrupted raises (fun k m => m = (k + 1) * a.p) Output.cbs Output.evals (NA.minimize env R srt fuel a g)
      (NA.minimizeE env R srt fuel a raises g) := by
  refine Goes.interrupted (c0 := []) (e0 := []) ?_
  unfold NA.minimize NA.minimizeE
  refine .bind fun _ _ => ?_
  cases a.fn with
  | none => exact .fail _
  | some fn =>
    dsimp only
    refine .optimizer fun obj => .bind fun _ _ => ?_
    unfold NA.na
    refine .bind fun s0 h0 => ?_
    refine run_goes (K := K) (S := NA.State σ K a.p a.ndim) (maxiter := a.maxiter) (p := a.p) (n := a.ndim)
      (out := fun r L => { res := r, cbs := L.cbs, evals := L.s.evals, x0After := L.s.caller, rng := L.s.rng }) ?_ ?_ ?_
    · exact NA.laws
    swap
    · exact fun _ _ => ⟨rfl, rfl⟩
    obtain ⟨i, hi, rfl⟩ := NA.init_ok h0
    simp

theorem C113_cmaes [NumFns K] {eigh : CMAES.Eigh K} {a : Evo.Args K} {raises : Nat → CB K a.p a.ndim → Option E} {junk : Vec K a.ndim} :
    Interrupted raises (fun k m => m = (k + 1) * a.p) Output.cbs Output.evals (CMAES.minimize env R srt eigh fuel a junk g)
      (CMAES.minimizeE env R srt eigh fuel a raises junk g) := by
  refine Goes.interrupted (c0 := []) (e0 := []) ?_
  unfold CMAES.minimize CMAES.minimizeE
  refine .bind fun _ _ => ?_
  cases a.fn with
  | none => exact .fail _
  | some fn =>
    dsimp only
    refine .optimizer fun obj => .bind fun _ _ => .bind fun pen _ => .bind fun m _ => ?_
    split_ifs
    · exact Evo.run_goes (p := a.p)
    · exact .fail _

theorem C113_vdcma [NumFns K] {a : Evo.Args K} {raises : Nat → CB K a.p a.ndim → Option E} {junk : Vec K a.ndim} :
    Interrupted raises (fun k m => m = (k + 1) * a.p) Output.cbs Output.evals (VDCMA.minimize env R srt fuel a junk g)
      (VDCMA.minimizeE env R srt fuel a raises junk g) := by
  refine Goes.interrupted (c0 := []) (e0 := []) ?_
  unfold VDCMA.minimize VDCMA.minimizeE
  refine .bind fun _ _ => ?_
  cases a.fn with
  | none => exact .fail _
  | some fn =>
    dsimp only
    refine .optimizer fun obj => .bind fun _ _ => .bind fun pen _ => .bind fun m _ => ?_
    split_ifs
    · exact Evo.run_goes (p := a.p)
    · exact .fail _

end optimizers

section samplers
variable {K σ E : Type} [AddZeroClass K] [One K] [Sub K] [Mul K] [Div K] [Neg K] [NatCast K] [IntCast K] [Pow K ℕ] [ArrayOps K] [LinearOrder K] [NumFns K]
variable {R : Rng σ K} {fuel : Nat} {g : σ}

theorem C113_mcmc [IntParts K] {a : MCMC.Args K} {raises : Nat → Sampling.CB K a.ndim → Option E} :
    Interrupted raises (fun k m => m = 1 + k * if a.constraints = some "Reject" then 0 else 1) Sampling.Output.cbs Sampling.Output.evals
      (MCMC.sample R fuel a g).1 (MCMC.sampleE R fuel a raises g) := by
  suffices h : Goes raises (Sampling.perCall (MCMC.perSample a.constraints)) 0 [] [] Sampling.Output.cbs Sampling.Output.evals
      (MCMC.sample R fuel a g).1 (MCMC.sampleE R fuel a raises g) from h.interrupted
  unfold MCMC.sample MCMC.sampleE
  cases a.fn with
  | none => exact .fail _
  | some fn =>
    cases a.checkStart with
    | error e => exact .fail _
    | ok u =>
      cases a.stepsize.scale a.lower a.upper with
      | error e => exact .fail _
      | ok step =>
        dsimp only
        unfold MCMC.rest MCMC.restE
        split_ifs
        · exact .fail _
        swap
        · exact .fail _
        · refine .bind fun s hs => ?_
          refine Goes.finish (n := 0) (cbs := Sampling.State.cbs) (ev := Sampling.State.evals) ?_ fun z o ho => ?_
          · exact Sampling.start_goes hs fun m hm => MCMC.loop_goes (P := MCMC.par R a fn step) fuel s m hm
          · cases ho; exact ⟨rfl, rfl⟩

theorem C113_hmc {a : HMC.Args K} {raises : Nat → Sampling.CB K a.ndim → Option E} :
    Interrupted raises (fun k m => m = 1 + k * ((a.nleap.toNat + 2) * (2 * a.ndim) + if a.constraints = some "Reject" then 0 else 2))
      Sampling.Output.cbs Sampling.Output.evals (HMC.sample R a g).1 (HMC.sampleE R a raises g) := by
  suffices h : Goes raises (Sampling.perCall (HMC.perSample a.nleap.toNat a.ndim a.constraints)) 0 [] [] Sampling.Output.cbs Sampling.Output.evals
      (HMC.sample R a g).1 (HMC.sampleE R a raises g) from h.interrupted
  unfold HMC.sample HMC.sampleE
  cases a.fn with
  | none => exact .fail _
  | some fn =>
    cases a.checkStart with
    | error e => exact .fail _
    | ok u =>
      cases decide (a.nleap < 1) with
      | true => exact .fail _
      | false =>
        cases a.stepsize.scale a.lower a.upper with
        | error e => exact .fail _
        | ok step =>
          dsimp only
          unfold HMC.rest HMC.restE
          split_ifs
          · exact .fail _
          · exact .fail _
          · refine .bind fun s hs => ?_
            refine Goes.finish (n := 0) (cbs := Sampling.State.cbs) (ev := Sampling.State.evals) ?_ fun z o ho => ?_
            · exact Sampling.start_goes hs fun m hm => HMC.loop_goes (P := HMC.par R a fn step) (HMC.gradOf_calls fn a.jac a.fdStep a.extraArgs) _ s m hm
            · unfold HMC.finish at ho
              rw [bind_ok_iff] at ho
              obtain ⟨i, -, ho⟩ := ho
              cases ho
              exact ⟨rfl, rfl⟩

end samplers

/-! ## Cases -/

namespace Concrete

/-- A callback that raises to end the run when it is called for the second time. -/
def second {B : Type} : Nat → B → Option String := fun k _ => if k = 1 then some "enough" else none

/-- The exception comes out after `c` calls and `m` requests. -/
def endsAt {B V Z : Type} (c m : Nat) (y : Except PyErr (Z ⊕ Stop String B V)) : Bool :=
  match y with
  | .ok (.inr st) => decide (st.err = "enough") && decide (st.cbs.length = c) && decide (st.evals.length = m)
  | _ => false

def goesOn {B V Z : Type} (y : Except PyErr (Z ⊕ Stop String B V)) : Bool :=
  match y with
  | .ok (.inl _) => true
  | _ => false

end Concrete

example : endsAt 2 10 (DE.minimizeE env rng 10 deArgs second 0) = true := by decide +kernel
example : endsAt 2 10 (CPSO.minimizeE env rng stableArgsort 10 cpsoArgs second 0) = true := by decide +kernel
example : endsAt 2 10 (PSO.minimizeE env rng stableArgsort 10 psoArgs second 0) = true := by decide +kernel
example : endsAt 2 10 (NA.minimizeE env rng stableArgsort 10 naArgs second 0) = true := by decide +kernel

/-- The rest of the run is lost: it would have made 15 requests. -/
example : ∃ o, DE.minimize env rng 10 deArgs 0 = .ok o ∧ decide (o.cbs.length = 3 ∧ o.evals.length = 15) = true :=
  returns_iff (t := fun o : Output Nat ℚ _ _ => decide (o.cbs.length = 3 ∧ o.evals.length = 15)) (by decide +kernel)

example : endsAt 2 (2 * evoArgs.p) (CMAES.minimizeE env rng stableArgsort eighDiag 10 evoArgs second junk0 0) = true := by decide +kernel
example : endsAt 2 (2 * evoArgs.p) (VDCMA.minimizeE env rng stableArgsort 10 evoArgs second junk0 0) = true := by decide +kernel
example : endsAt 2 2 (MCMC.sampleE rng 10 mcmcArgs second 0) = true := by decide +kernel
example : endsAt 2 19 (HMC.sampleE rng hmcArgs second 0) = true := by decide +kernel

example : goesOn (DE.minimizeE env rng 10 { deArgs with callback := none } second 0) = true := by decide +kernel

end Stochopy
