import Verif.Lemmas.SamplerRun
import Verif.Props.Chains

/-!
# C81, C82: complete descriptions of runs of the samplers
-/

set_option linter.unusedSectionVars false

namespace Stochopy
open Spec Concrete
variable {K σ : Type} [AddZeroClass K] [One K] [Sub K] [Mul K] [Div K] [Neg K] [NatCast K] [IntCast K] [Pow K ℕ] [ArrayOps K] [LinearOrder K] [IntParts K] [NumFns K] [NegativeLog K]
variable {R : Rng σ K} {fuel : Nat} {g : σ}

/-- C81: every completed 'mcmc' call is the Metropolis-Hastings chain described in `Spec/SamplerRun.lean`. -/
theorem C81_mcmc (hR : R.Ok) {a : MCMC.Args K} {o : Sampling.Output σ K a.ndim} {fn : Vec (Val K) a.ndim → Val K} (hfn : a.fn = some fn)
    (h : (MCMC.sample R fuel a g).1 = .ok o) :
    ∃ X gs Y B, Spec.MCMC.Run (MCMC.setting R a fn) (a.seeded R g) X gs Y B o := MCMC.run_of hR hfn h

/-- C81: the description leaves no freedom. -/
theorem C81_mcmc_unique {n : Nat} {c : Spec.MCMC.Setting σ K n} {X X' : Nat → Vec (Val K) n} {gs gs' : Nat → σ} {Y Y' : Nat → Vec (Val K) n}
    {B B' : Nat → Bool} {o o' : Sampling.Output σ K n} (h : Spec.MCMC.Run c g X gs Y B o) (h' : Spec.MCMC.Run c g X' gs' Y' B' o') : o = o' :=
  Spec.MCMC.run_unique h h'

/-- C82: every completed 'hmc' call is the Hamiltonian chain described in `Spec/SamplerRun.lean`. -/
theorem C82_hmc (hR : R.Ok) {a : HMC.Args K} {o : Sampling.Output σ K a.ndim} {fn : Vec (Val K) a.ndim → Val K} (hfn : a.fn = some fn)
    (h : (HMC.sample R a g).1 = .ok o) :
    ∃ X gs E B, Spec.HMC.Run (HMC.setting R a fn) (a.seeded R g) X gs E B o := HMC.run_of hR hfn h

/-- C82: the description leaves no freedom. -/
theorem C82_hmc_unique {n : Nat} {c : Spec.HMC.Setting σ K n} {X X' : Nat → Vec (Val K) n} {gs gs' : Nat → σ} {E E' : Nat → List (Vec (Val K) n)}
    {B B' : Nat → Bool} {o o' : Sampling.Output σ K n} (h : Spec.HMC.Run c g X gs E B o) (h' : Spec.HMC.Run c g X' gs' E' B' o') : o = o' :=
  Spec.HMC.run_unique h h'

section Exact
variable {K : Type} [Field K] [LinearOrder K] [IsStrictOrderedRing K] [FloorRing K] [NumFns K]

/-- C81: the numbers in the description in exact arithmetic. -/
theorem C81_exact (a : MCMC.Args K) : a.scales = scaleOf a.toArgs ∧ (0 ≤ a.perc → a.size = blockSize a.perc a.ndim) := by
  constructor
  · funext j
    show stepEntry a.stepsize j * (1 / 2 * (a.upper j - a.lower j)) = stepEntry a.stepsize j * ((a.upper j - a.lower j) / 2)
    ring
  · intro h
    rw [← MCMC.perIter_size, MCMC.perIter_eq h]

/-- C82: the gradient in the description is the central difference in exact arithmetic. -/
theorem C82_exact {n : Nat} (fn : Vec (Val K) n → Val K) (h : K) (q : Vec (Val K) n) :
    (∀ j, Spec.HMC.gradient fn h q j =
      Val.divBy (.fin (1 / 2) * (fn (Function.update q j (q j + .fin h)) - fn (Function.update q j (q j - .fin h)))) h) ∧
    Spec.HMC.around h q = (List.finRange n).flatMap fun j =>
      [Function.update q j (q j + .fin h), Function.update q j (q j - .fin h)] := by
  have h1 : ∀ j, Spec.HMC.above h q j = Function.update q j (q j + .fin h) := HMC.above_exact h q
  have h2 : ∀ j, Spec.HMC.below h q j = Function.update q j (q j - .fin h) := HMC.below_exact h q
  unfold Spec.HMC.gradient Spec.HMC.around
  exact ⟨fun j => by rw [h1, h2], by simp only [h1, h2]⟩

end Exact

/-- A chain of five samples, of which some but not all were newly accepted. -/
example : ∃ (o : Sampling.Output Nat ℚ mcmcArgs.ndim) (X : Nat → Vec (Val ℚ) mcmcArgs.ndim) (gs : Nat → Nat)
    (Y : Nat → Vec (Val ℚ) mcmcArgs.ndim) (B : Nat → Bool),
    Spec.MCMC.Run (MCMC.setting rng mcmcArgs bowl) (mcmcArgs.seeded rng 0) X gs Y B o ∧
    0 < Spec.Chain.acceptedBefore B 4 ∧ Spec.Chain.acceptedBefore B 4 < 4 := by
  obtain ⟨o, ho, hmix⟩ := mcmc_run
  obtain ⟨X, gs, Y, B, hr⟩ := C81_mcmc rng_ok (a := mcmcArgs) rfl ho
  have h1 : o.acceptRatio = (Spec.Chain.acceptedBefore B 4 : ℚ) / ((5 : Nat) : ℚ) := hr.report.ratio
  unfold mixed at hmix
  rw [Bool.and_eq_true, decide_eq_true_iff, decide_eq_true_iff, h1] at hmix
  refine ⟨o, X, gs, Y, B, hr, ?_, ?_⟩
  · by_contra hc
    rw [Nat.eq_zero_of_not_pos hc] at hmix
    norm_num at hmix
  · by_contra hc
    have : (4 : ℚ) ≤ (Spec.Chain.acceptedBefore B 4 : ℚ) := by exact_mod_cast not_lt.1 hc
    have h2 := hmix.2
    push_cast at h2
    linarith

example : ∃ (o : Sampling.Output Nat ℚ hmcArgs.ndim) (X : Nat → Vec (Val ℚ) hmcArgs.ndim) (gs : Nat → Nat)
    (E : Nat → List (Vec (Val ℚ) hmcArgs.ndim)) (B : Nat → Bool),
    Spec.HMC.Run (HMC.setting rng hmcArgs bowl) (hmcArgs.seeded rng 0) X gs E B o ∧
    0 < Spec.Chain.acceptedBefore B 4 ∧ Spec.Chain.acceptedBefore B 4 < 4 := by
  obtain ⟨o, ho, hmix⟩ := hmc_run
  obtain ⟨X, gs, E, B, hr⟩ := C82_hmc rng_ok (a := hmcArgs) rfl ho
  have h1 : o.acceptRatio = (Spec.Chain.acceptedBefore B 4 : ℚ) / ((5 : Nat) : ℚ) := hr.report.ratio
  unfold mixed at hmix
  rw [Bool.and_eq_true, decide_eq_true_iff, decide_eq_true_iff, h1] at hmix
  refine ⟨o, X, gs, E, B, hr, ?_, ?_⟩
  · by_contra hc
    rw [Nat.eq_zero_of_not_pos hc] at hmix
    norm_num at hmix
  · by_contra hc
    have : (4 : ℚ) ≤ (Spec.Chain.acceptedBefore B 4 : ℚ) := by exact_mod_cast not_lt.1 hc
    have h2 := hmix.2
    push_cast at h2
    linarith

end Stochopy
