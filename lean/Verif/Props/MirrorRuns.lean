import Verif.Props.MirrorLaw
import Verif.Props.MirrorNA
import Verif.Props.AffineSampler
import Verif.Props.EvoRuns
import Verif.Props.Chains
import Verif.Props.Gaussian

/-! # Concrete cases for C98 and for the samplers of C72

The generator below yields the normal numbers `z g` from even states and the opposite ones from odd states. -/

namespace Stochopy.Props
open Stochopy Concrete

/-- To the other parity. -/
def other (g : Nat) : Nat := g / 2 * 2 + (1 - g % 2)

theorem other_half (g : Nat) : other g / 2 = g / 2 := by unfold other; omega
theorem other_odd (g : Nat) : other g % 2 = 1 - g % 2 := by unfold other; omega
theorem other_add (g : Nat) : other (g + 2) = other g + 2 := by unfold other; omega

/-- Odd states give the opposite normal numbers, and if `flip` also `1 - u` for uniform numbers `u`. -/
def twoSided (z : Nat → ℚ) (flip : Bool) : Rng Nat ℚ where
  seed s := s.toNat
  rand g :=
    let u : ℚ := ((g / 2 * 7 + 3) % 9 + 1 : Nat) / 10
    (if flip && g % 2 == 1 then 1 - u else u, g + 2)
  randn g := (if g % 2 = 1 then -z (g / 2) else z (g / 2), g + 2)
  randint n g := (g / 2 % n, g + 2)
  perm _ g := (Equiv.refl _, g + 2)

theorem twoSided_randn (z : Nat → ℚ) (flip : Bool) (g : Nat) :
    (twoSided z flip).randn (other g) = (-((twoSided z flip).randn g).1, other ((twoSided z flip).randn g).2) := by
  show (if other g % 2 = 1 then -z (other g / 2) else z (other g / 2), other g + 2) = (-(if g % 2 = 1 then -z (g / 2) else z (g / 2)), other (g + 2))
  rw [other_half, other_odd, other_add]
  congr 1
  rcases Nat.mod_two_eq_zero_or_one g with h | h <;> rw [h] <;> norm_num

theorem twoSided_mirrors (z : Nat → ℚ) : (twoSided z false).Mirrors other id where
  randn := twoSided_randn z false
  rand g := by
    show ((_, other g + 2) : ℚ × Nat) = (_, other (g + 2))
    rw [other_add]
    show ((((other g / 2 * 7 + 3) % 9 + 1 : Nat) / 10, _) : ℚ × Nat) = ((((g / 2 * 7 + 3) % 9 + 1 : Nat) / 10 : ℚ), _)
    rw [other_half]

theorem twoSided_mirrors' (z : Nat → ℚ) : (twoSided z true).Mirrors other fun u => 1 - u where
  randn := twoSided_randn z true
  rand g := by
    have key : ∀ u : ℚ, (if true && other g % 2 == 1 then 1 - u else u) = 1 - if true && g % 2 == 1 then 1 - u else u := by
      intro u
      rw [other_odd]
      rcases Nat.mod_two_eq_zero_or_one g with h | h <;> rw [h] <;> norm_num
    show ((if true && other g % 2 == 1 then 1 - (((other g / 2 * 7 + 3) % 9 + 1 : Nat) / 10 : ℚ) else
      (((other g / 2 * 7 + 3) % 9 + 1 : Nat) / 10 : ℚ), other g + 2) : ℚ × Nat) = (1 - if true && g % 2 == 1 then
        1 - (((g / 2 * 7 + 3) % 9 + 1 : Nat) / 10 : ℚ) else (((g / 2 * 7 + 3) % 9 + 1 : Nat) / 10 : ℚ), other (g + 2))
    rw [key, other_half, other_add]

/-- Some normal numbers. -/
def zs (k : Nat) : ℚ := ((k * 3 + 1) % 5 : Nat) - 2

/-- Reflection about `1/4`, `3/4`, … . -/
def center (j : Nat) : ℚ := j + 1 / 2

noncomputable def center' (j : Nat) : ℝ := j + 1 / 2

/-! ## The optimizers with a given start -/

/-- Five starting points. -/
def five : NdArr ℚ := { shape := [5, 2], get := fun l => if l.getD 1 0 = 0 then (l.getD 0 0 : Nat) / 5 else ((l.getD 0 0 * 2 : Nat) - 3) / 5 }

def deStart : DE.Args ℚ := { deArgs with x0 := some five, constraints := none, seed := none, recombination := 1 / 2 }

theorem de_mirror : ∃ o, DE.minimize env rng 10 deStart 1 = .ok o ∧ improves o = true ∧
    DE.minimize env rng 10 (deStart.mirror center) 1 =
      .ok (o.map id (mirror center) (mirror center)) := by
  obtain ⟨o, h, hi⟩ := returns_iff (r := DE.minimize env rng 10 deStart 1) (t := improves)
    (by decide +kernel)
  have e := C98_de_partial env_ok (R := rng) (fuel := 10) (a := deStart) (g := 1) center nofun rfl
  rw [h] at e
  exact ⟨o, h, hi, e⟩

theorem cpso_mirror : ∃ o, CPSO.minimize env rng stableArgsort 10 { cpsoArgs with x0 := some five, competitivity := none } 0 = .ok o ∧
    improves o = true ∧
    CPSO.minimize env rng stableArgsort 10 (CPSO.Args.mirror { cpsoArgs with x0 := some five, competitivity := none } center) 0 =
      .ok (o.map id (mirror center) (mirror center)) := by
  obtain ⟨o, h, hi⟩ := returns_iff
    (r := CPSO.minimize env rng stableArgsort 10 { cpsoArgs with x0 := some five, competitivity := none } 0) (t := improves)
    (by decide +kernel)
  have e := C98_cpso_partial env_ok (R := rng) (srt := stableArgsort) (fuel := 10)
    (a := { cpsoArgs with x0 := some five, competitivity := none }) (g := 0) center nofun (Or.inl rfl)
  rw [h] at e
  exact ⟨o, h, hi, e⟩

theorem pso_mirror : ∃ o, PSO.minimize env rng stableArgsort 10 { psoArgs with x0 := some five } 0 = .ok o ∧
    improves o = true ∧
    PSO.minimize env rng stableArgsort 10 (PSO.Args.mirror { psoArgs with x0 := some five } center) 0 =
      .ok (o.map id (mirror center) (mirror center)) := by
  obtain ⟨o, h, hi⟩ := returns_iff
    (r := PSO.minimize env rng stableArgsort 10 { psoArgs with x0 := some five } 0) (t := improves)
    (by decide +kernel)
  have e := C98_pso_partial env_ok (R := rng) (srt := stableArgsort) (fuel := 10)
    (a := { psoArgs with x0 := some five }) (g := 0) center nofun
  rw [h] at e
  exact ⟨o, h, hi, e⟩

theorem na_mirror : ∃ o, NA.minimize env (twoSided zs true) stableArgsort 10 { naArgs with x0 := some five, seed := none } 0 = .ok o ∧
    improves o = true ∧
    NA.minimize env (twoSided zs true) stableArgsort 10 (NA.Args.mirror { naArgs with x0 := some five, seed := none } center) 1 =
      .ok { o.map id (mirror fun _ => 1) (mirror center) with rng := other o.rng } := by
  obtain ⟨o, h, hi⟩ := returns_iff
    (r := NA.minimize env (twoSided zs true) stableArgsort 10 { naArgs with x0 := some five, seed := none } 0) (t := improves)
    (by decide +kernel)
  have e := C98_na_partial env_ok (twoSided_mirrors' zs) (srt := stableArgsort) (fuel := 10)
    (a := { naArgs with x0 := some five, seed := none }) (g := 0) center (by decide +kernel) nofun rfl
  rw [h] at e
  exact ⟨o, h, hi, e⟩

theorem cmaes_mirror_run : ∃ o, CMAES.minimize env (twoSided zs true) stableArgsort eighDiag 10 { evoArgs with seed := none } junk0 2 = .ok o ∧
    improves o = true ∧
    CMAES.minimize env (twoSided zs true) stableArgsort eighDiag 10 (Evo.Args.mirror { evoArgs with seed := none } center) junk0 3 =
      .ok (o.mirror center other) := by
  obtain ⟨o, h, hi⟩ := returns_iff
    (r := CMAES.minimize env (twoSided zs true) stableArgsort eighDiag 10 { evoArgs with seed := none } junk0 2) (t := improves)
    (by decide +kernel)
  have e := C98_cmaes_partial env_ok (twoSided_mirrors' zs) (srt := stableArgsort) (eigh := eighDiag) (fuel := 10)
    (a := { evoArgs with seed := none }) rfl rfl (fun _ _ => rfl) (by decide) center junk0 junk0 2
  rw [h] at e
  exact ⟨o, h, hi, e⟩

theorem vdcma_mirror_run : ∃ o, VDCMA.minimize env (twoSided zs true) stableArgsort 10 { evoArgs with seed := none } junk0 2 = .ok o ∧
    improves o = true ∧
    VDCMA.minimize env (twoSided zs true) stableArgsort 10 (Evo.Args.mirror { evoArgs with seed := none } center) junk0 3 =
      .ok (o.mirror center other) := by
  obtain ⟨o, h, hi⟩ := returns_iff
    (r := VDCMA.minimize env (twoSided zs true) stableArgsort 10 { evoArgs with seed := none } junk0 2) (t := improves)
    (by decide +kernel)
  have e := C98_vdcma_partial env_ok (twoSided_mirrors' zs) (srt := stableArgsort) (fuel := 10)
    (a := { evoArgs with seed := none }) rfl rfl (fun _ _ => rfl) (by decide) center junk0 junk0 2
  rw [h] at e
  exact ⟨o, h, hi, e⟩

/-! ## The samplers -/

theorem mcmc_mirror_run : ∃ o, (MCMC.sample (twoSided zs false) 10 { mcmcArgs with seed := none } 0).1 = .ok o ∧ mixed o = true ∧
    (MCMC.sample (twoSided zs false) 10 (MCMC.Args.mirror { mcmcArgs with seed := none } center) 1).1 =
      .ok (o.map (vmirror center) other) := by
  obtain ⟨o, h, hi⟩ := returns_iff (r := (MCMC.sample (twoSided zs false) 10 { mcmcArgs with seed := none } 0).1) (t := mixed)
    (by decide +kernel)
  have e := C98_mcmc_partial (twoSided_mirrors zs) (fuel := 10) (a := { mcmcArgs with seed := none }) (g := 0) center nofun rfl
  rw [h] at e
  exact ⟨o, h, hi, e⟩

theorem hmc_mirror_run : ∃ o o', (HMC.sample (twoSided zs false) { hmcArgs with seed := none } 0).1 = .ok o ∧ mixed o = true ∧
    (HMC.sample (twoSided zs false) (HMC.Args.mirror { hmcArgs with seed := none } center) 1).1 = .ok o' ∧
    o'.xall = (o.map (vmirror center) other).xall ∧ o'.fval = o.fval ∧ o'.evals.Perm (o.evals.map (vmirror center)) := by
  obtain ⟨o, h, hi⟩ := returns_iff (r := (HMC.sample (twoSided zs false) { hmcArgs with seed := none } 0).1) (t := mixed)
    (by decide +kernel)
  obtain ⟨o', e1, e2, e3⟩ := (C98_hmc_partial (twoSided_mirrors zs) (a := { hmcArgs with seed := none }) (g := 0) center nofun rfl).1 o h
  exact ⟨o, o', h, hi, e1, by rw [e2], by rw [e2]; rfl, e3⟩

/-- Reflection does change the points. -/
example : samples (MCMC.sample (twoSided zs false) 10 { mcmcArgs with seed := none } 0).1 ≠
    samples (MCMC.sample (twoSided zs false) 10 (MCMC.Args.mirror { mcmcArgs with seed := none } center) 1).1 := by decide +kernel

/-- Units and origin for the samplers. -/
theorem mcmc_affine : ∃ o, (MCMC.sample rng 10 mcmcArgs 0).1 = .ok o ∧ mixed o = true ∧
    (MCMC.sample rng 10 (mcmcArgs.affine (fun j => (j : ℚ) + 1) center) 0).1 = .ok (o.map (vaffine (fun j => (j : ℚ) + 1) center) id) := by
  obtain ⟨o, h, hi⟩ := mcmc_run
  have e := C72_mcmc (R := rng) (fuel := 10) (a := mcmcArgs) (g := 0) (s := fun j => (j : ℚ) + 1) (fun j => by positivity) center
  rw [h] at e
  exact ⟨o, h, hi, e⟩

theorem hmc_affine : ∃ o, (HMC.sample rng hmcArgs 0).1 = .ok o ∧ mixed o = true ∧
    (HMC.sample rng (hmcArgs.affine 2 center) 0).1 = .ok (o.map (vaffine (fun _ => 2) center) id) := by
  obtain ⟨o, h, hi⟩ := hmc_run
  have e := C72_hmc (R := rng) (a := hmcArgs) (g := 0) (c := 2) (by norm_num) center
  rw [h] at e
  exact ⟨o, h, hi, e⟩

/-! ## Laws -/

/-- A chain of 1000 samples in `[0, 1]`, first sample drawn uniformly. -/
noncomputable def realChain : Sampling.Args ℝ :=
  { bounds := { shape := [1, 2], get := fun l => if l.getD 1 0 = 0 then 0 else 1 },
    fn := some fun x => x ⟨0, by decide⟩ * x ⟨0, by decide⟩, x0 := none, maxiter := 1000, stepsize := .scalar false (1 / 2), seed := none,
    constraints := none, returnAll := true, callback := none }

noncomputable def realMCMC : MCMC.Args ℝ := { realChain with perc := 1 }

noncomputable def realHMC : HMC.Args ℝ := { realChain with nleap := 5, jac := none, fdStep := 1 / 100, extraArgs := false }

/-- The last sample in `[0, 1/2]` and, for the reflected problem, its mirror image in `[1/2, 1]`, are equally likely. -/
example : streamLaw {g | ∃ o, (MCMC.sample streamRng 1000 (realMCMC.mirror fun _ => 1) g).1 = .ok o ∧ Val.fin (1 / 2) ≤ o.x ⟨0, Nat.one_pos⟩} =
    streamLaw {g | ∃ o, (MCMC.sample streamRng 1000 realMCMC g).1 = .ok o ∧ Val.fin (1 / 2) ≤ Val.fin 1 - o.x ⟨0, Nat.one_pos⟩} := by
  refine (C98_mcmc_law (fuel := 1000) (a := realMCMC) rfl (fun _ => 1) fun r => ∃ o, r = .ok o ∧ Val.fin (1 / 2) ≤ o.x ⟨0, Nat.one_pos⟩).trans ?_
  congr 1
  ext g
  show (∃ o, Except.map _ _ = _ ∧ _) ↔ ∃ o, _ = _ ∧ _
  cases (MCMC.sample streamRng 1000 realMCMC g).1 with
  | error e => exact ⟨nofun, nofun⟩
  | ok o =>
    constructor
    · rintro ⟨o', h, h'⟩
      cases h
      exact ⟨o, rfl, h'⟩
    · rintro ⟨o', h, h'⟩
      cases h
      exact ⟨_, rfl, h'⟩

example := C98_hmc_law (a := realHMC) rfl center'

example (eigh : CMAES.Eigh ℝ) (junk junk' : Vec ℝ 2) :=
  C98_cmaes_law_partial env_ok (srt := stableArgsort) (eigh := eigh) (fuel := 7) (a := { realArgs with constraints := none, seed := none }) rfl rfl
    (by norm_num) center' junk junk'

example (junk junk' : Vec ℝ 2) :=
  C98_vdcma_law_partial env_ok (srt := stableArgsort) (fuel := 7) (a := { realArgs with constraints := none, seed := none }) rfl rfl
    (by norm_num) center' junk junk'

/-! ## Without `x0` -/

/-- The points evaluated in the reflected problem are not the mirror images. -/
def Unreflected {p n : Nat} (t : Nat → ℚ) (r r' : Except PyErr (Output Nat ℚ p n)) : Prop :=
  ∃ o o', r = .ok o ∧ r' = .ok o' ∧ o'.evals ≠ o.evals.map (mirror t)

example : Unreflected center (DE.minimize env rng 10 deArgs 0) (DE.minimize env rng 10 (deArgs.mirror center) 0) := by
  obtain ⟨o, h, -⟩ := de_run
  obtain ⟨o', h', -⟩ := returns_iff (r := DE.minimize env rng 10 (deArgs.mirror center) 0) (t := fun _ => true) (by decide +kernel)
  exact ⟨o, o', h, h', C98_de_violated (a := deArgs) (fuel := 10) (fuel' := 10) (g := 0) (g' := 0) env_ok rng_ok center rfl (j := ⟨0, by decide⟩) (by decide +kernel) h h'⟩

example : Unreflected center (PSO.minimize env rng stableArgsort 10 psoArgs 0)
    (PSO.minimize env rng stableArgsort 10 (psoArgs.mirror center) 0) := by
  obtain ⟨o, h, -⟩ := pso_run
  obtain ⟨o', h', -⟩ := returns_iff (r := PSO.minimize env rng stableArgsort 10 (psoArgs.mirror center) 0) (t := fun _ => true)
    (by decide +kernel)
  exact ⟨o, o', h, h', C98_pso_violated (a := psoArgs) (fuel := 10) (fuel' := 10) (g := 0) (g' := 0) env_ok rng_ok center rfl (j := ⟨0, by decide⟩) (by decide +kernel) h h'⟩

example : Unreflected center (CPSO.minimize env rng stableArgsort 10 cpsoArgs 0)
    (CPSO.minimize env rng stableArgsort 10 (cpsoArgs.mirror center) 0) := by
  obtain ⟨o, h, -⟩ := cpso_run
  obtain ⟨o', h', -⟩ := returns_iff (r := CPSO.minimize env rng stableArgsort 10 (cpsoArgs.mirror center) 0) (t := fun _ => true)
    (by decide +kernel)
  exact ⟨o, o', h, h', C98_cpso_violated (a := cpsoArgs) (fuel := 10) (fuel' := 10) (g := 0) (g' := 0) env_ok rng_ok center rfl (j := ⟨0, by decide⟩) (by decide +kernel) h h'⟩

example : Unreflected center (NA.minimize env rng stableArgsort 10 naArgs 0)
    (NA.minimize env rng stableArgsort 10 (naArgs.mirror center) 0) := by
  obtain ⟨o, h, -⟩ := na_run
  obtain ⟨o', h', -⟩ := returns_iff (r := NA.minimize env rng stableArgsort 10 (naArgs.mirror center) 0) (t := fun _ => true)
    (by decide +kernel)
  exact ⟨o, o', h, h', C98_na_violated (a := naArgs) (fuel := 10) (fuel' := 10) (g := 0) (g' := 0) env_ok rng_ok center (by decide) rfl (by decide +kernel) h h'⟩

/-! ## 'Penalize' -/

/-- The best values told to the callback. -/
def told {p n : Nat} (r : Except PyErr (Output Nat ℚ p n)) : List (Val ℚ) :=
  match r with
  | .ok o => o.cbs.map fun c => c.fval
  | .error _ => []

/-- One variable in `[-1, 1]`, start at 2, outside. -/
def penalizeArgs : Evo.Args ℚ :=
  { bounds := { shape := [1, 2], get := fun l => if l.getD 1 0 = 0 then -1 else 1 },
    fn := some fun x => .fin (-(x ⟨0, by decide⟩)), x0 := some { shape := [1], get := fun _ => 2 },
    maxiter := 2, popsize := 2, seed := none, xtol := 1 / 10 ^ 8, ftol := .fin (-10), workers := 1,
    backend := none, returnAll := true, verbosity := 1, callback := some true,
    sigma := 1 / 10, muperc := 1 / 2, constraints := some "Penalize" }

/-- Two variables, start inside. -/
def penalizeArgs2 : Evo.Args ℚ :=
  { penalizeArgs with
    bounds := { shape := [2, 2], get := fun l => if l.getD 1 0 = 0 then -1 else 1 }
    fn := some fun x => .fin (-(x ⟨0, by decide⟩))
    x0 := some { shape := [2], get := fun l => if l.getD 0 0 = 0 then 9 / 10 else 0 }
    popsize := 4 }

def zs1 : Nat → ℚ := fun k => [1, 2, 1, 2].getD k 1
def zs2 : Nat → ℚ := fun k => [0, 1, 5, 0, 6, 0, 7, 0, 8, 0, 1, 0, 2, 0, 2, 0, 1, 0].getD k 1

/-- C98 fails for `cmaes` with 'Penalize', which looks at means above the upper bounds only (C60): with opposite normal numbers the
reflected problem has other values (the weight of the penalty grows in one of the two runs). -/
theorem C98_cmaes_violated : (∃ o, CMAES.minimize env (twoSided zs1 false) stableArgsort eighDiag 10 penalizeArgs (fun _ => 5) 0 = .ok o) ∧
    (∃ o, CMAES.minimize env (twoSided zs1 false) stableArgsort eighDiag 10 (penalizeArgs.mirror fun _ => 0) (fun _ => -5) (other 0) = .ok o) ∧
    told (CMAES.minimize env (twoSided zs1 false) stableArgsort eighDiag 10 (penalizeArgs.mirror fun _ => 0) (fun _ => -5) (other 0)) ≠
      told (CMAES.minimize env (twoSided zs1 false) stableArgsort eighDiag 10 penalizeArgs (fun _ => 5) 0) ∧
    (twoSided zs1 false).Mirrors other id := by
  refine ⟨?_, ?_, by decide +kernel, twoSided_mirrors _⟩
  · obtain ⟨o, h, -⟩ := returns_iff (r := CMAES.minimize env (twoSided zs1 false) stableArgsort eighDiag 10 penalizeArgs (fun _ => 5) 0)
      (t := fun _ => true) (by decide +kernel)
    exact ⟨o, h⟩
  · obtain ⟨o, h, -⟩ := returns_iff
      (r := CMAES.minimize env (twoSided zs1 false) stableArgsort eighDiag 10 (penalizeArgs.mirror fun _ => 0) (fun _ => -5) (other 0))
      (t := fun _ => true) (by decide +kernel)
    exact ⟨o, h⟩

/-- Likewise for `vdcma`, from a start inside the box. -/
theorem C98_vdcma_violated : (∃ o, VDCMA.minimize env (twoSided zs2 false) stableArgsort 10 penalizeArgs2 junk0 0 = .ok o) ∧
    (∃ o, VDCMA.minimize env (twoSided zs2 false) stableArgsort 10 (penalizeArgs2.mirror fun _ => 0) junk0 (other 0) = .ok o) ∧
    told (VDCMA.minimize env (twoSided zs2 false) stableArgsort 10 (penalizeArgs2.mirror fun _ => 0) junk0 (other 0)) ≠
      told (VDCMA.minimize env (twoSided zs2 false) stableArgsort 10 penalizeArgs2 junk0 0) ∧
    (twoSided zs2 false).Mirrors other id := by
  refine ⟨?_, ?_, by decide +kernel, twoSided_mirrors _⟩
  · obtain ⟨o, h, -⟩ := returns_iff (r := VDCMA.minimize env (twoSided zs2 false) stableArgsort 10 penalizeArgs2 junk0 0)
      (t := fun _ => true) (by decide +kernel)
    exact ⟨o, h⟩
  · obtain ⟨o, h, -⟩ := returns_iff
      (r := VDCMA.minimize env (twoSided zs2 false) stableArgsort 10 (penalizeArgs2.mirror fun _ => 0) junk0 (other 0))
      (t := fun _ => true) (by decide +kernel)
    exact ⟨o, h⟩

end Stochopy.Props
