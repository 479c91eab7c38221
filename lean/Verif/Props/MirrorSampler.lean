import Verif.Lemmas.SamplerUnits
import Verif.Props.Mirror

/-! # No direction is preferred: the samplers (C98) -/

set_option linter.unusedSectionVars false

namespace Stochopy.Props
open Stochopy Sampling
variable {K σ : Type} [Field K] [LinearOrder K] [IsStrictOrderedRing K] [NumFns K] {n : Nat}

/-- From two first points that are mirror images the two chains are. -/
theorem mcmc_mirror [IntParts K] {R : Rng σ K} {T : σ → σ} (hT : R.Mirrors T id) {fuel : Nat} {a : MCMC.Args K} {g g' : σ} (t : Nat → K)
    (hseed : a.seed = none)
    (hm : ExRel (fun y y' => y'.1 = vmirror t y.1 ∧ y'.2 = T y.2) (a.first R g)
      ((a.mirror t).first R g' : Except PyErr (Vec (Val K) a.ndim × σ))) :
    (MCMC.sample R fuel (a.mirror t) g').1 = (MCMC.sample R fuel a g).1.map (Sampling.Output.map (vmirror t) T) := by
  have hsc : ((a.mirror t).stepsize.scale (a.mirror t).lower (a.mirror t).upper : Except PyErr (Vec K a.ndim)) =
      a.stepsize.scale a.lower a.upper := scale_mirror a.stepsize t a.lower a.upper
  have hch : (a.mirror t).checkStart = a.checkStart := checkStart_mirror a.toArgs t
  have hse : ∀ h, a.seeded R h = h := fun h => by unfold Sampling.Args.seeded; rw [hseed]
  have hse' : ∀ h, (a.mirror t).seeded R h = h := fun h => by
    unfold Sampling.Args.seeded; show (match a.seed with | some s => R.seed s | none => h) = h; rw [hseed]
  cases hfn : a.fn with
  | none =>
    have h1 : (a.mirror t).fn = none := by show Option.map _ a.fn = _; rw [hfn]; rfl
    unfold MCMC.sample
    rw [hfn, h1]
    rfl
  | some fn =>
    have h1 : (a.mirror t).fn = some fun x => fn (vmirror t x) := by show Option.map _ a.fn = _; rw [hfn]; rfl
    unfold MCMC.sample
    rw [hfn, h1, hch]
    cases a.checkStart with
    | error e => rfl
    | ok _ =>
      cases hst : a.stepsize.scale a.lower a.upper with
      | error e => rw [hst] at hsc; erw [hsc]; rfl
      | ok step =>
        rw [hst] at hsc
        erw [hsc]
        dsimp only
        rw [MCMC.rest_eq, hse]
        refine Eq.trans (MCMC.rest_eq R fuel (a.mirror t) _ _ g') ?_
        rw [hse']
        refine MCMC.Same.restOf (ψ := vmirror t) (T := T) (ε := -1) ?_ fuel a.perc a.badCallback a.maxiter a.callback ?_
        · exact {
            fn := fun x => congrArg fn (vmirror_vmirror t x)
            pert := fun j jmax z x => by
              rw [vmirror_eq, vmirror_eq]
              exact perturb_vaffine (fun _ => neg_ne_zero.2 one_ne_zero) t (fun j => rfl) j jmax z x
            per := rfl
            cons := rfl
            maxiter := rfl
            cb := rfl
            ra := rfl
            randn := fun g => by rw [neg_one_mul]; exact hT.randn g
            rand := fun g => hT.rand g }
        · exact hm

/-- C98 for `mcmc`: when the normal numbers change sign, the chain of the reflected problem is the reflected chain: every proposal,
acceptance, callback and result is the mirror image, and the same exception is raised.  Missing: the first point drawn uniformly when
no `x0` is given (its mirror image needs `1 - u` for these draws only), and a `seed`, which fixes the numbers. -/
theorem C98_mcmc_partial [IntParts K] {R : Rng σ K} {T : σ → σ} (hT : R.Mirrors T id) {fuel : Nat} {a : MCMC.Args K} {g : σ} (t : Nat → K)
    (hx : a.x0 ≠ none) (hseed : a.seed = none) :
    (MCMC.sample R fuel (a.mirror t) (T g)).1 = (MCMC.sample R fuel a g).1.map (Sampling.Output.map (vmirror t) T) :=
  mcmc_mirror hT t hseed (first_mirror a.toArgs t R T g hx)

/-- Likewise for `hmc`. -/
theorem hmc_mirror {R : Rng σ K} {T : σ → σ} (hT : R.Mirrors T id) {a : HMC.Args K} {g g' : σ} (t : Nat → K) (hseed : a.seed = none)
    (hm : ExRel (fun y y' => y'.1 = vmirror t y.1 ∧ y'.2 = T y.2) (a.first R g)
      ((a.mirror t).first R g' : Except PyErr (Vec (Val K) a.ndim × σ))) :
    (∀ o, (HMC.sample R a g).1 = .ok o → ∃ o', (HMC.sample R (a.mirror t) g').1 = .ok o' ∧
      o' = { o.map (vmirror t) T with evals := o'.evals } ∧ o'.evals.Perm (o.evals.map (vmirror t))) ∧
    ∀ e, (HMC.sample R a g).1 = .error e → (HMC.sample R (a.mirror t) g').1 = .error e := by
  suffices h : ExRel (OutRel (vmirror t) T fun l l' => l'.Perm (l.map (vmirror t))) (HMC.sample R a g).1
      ((HMC.sample R (a.mirror t) g').1 : Except PyErr (Sampling.Output σ K a.ndim)) by
    constructor
    · intro o ho
      rw [ho] at h
      cases h' : ((HMC.sample R (a.mirror t) g').1 : Except PyErr (Sampling.Output σ K a.ndim)) with
      | error e => rw [h'] at h; exact h.elim
      | ok o' => rw [h'] at h; exact ⟨o', rfl, h.1, h.2⟩
    · intro e he
      rw [he] at h
      cases h' : ((HMC.sample R (a.mirror t) g').1 : Except PyErr (Sampling.Output σ K a.ndim)) with
      | error e => rw [h'] at h; exact congrArg Except.error (Eq.symm h)
      | ok o' => rw [h'] at h; exact h.elim
  have hsc : ((a.mirror t).stepsize.scale (a.mirror t).lower (a.mirror t).upper : Except PyErr (Vec K a.ndim)) =
      a.stepsize.scale a.lower a.upper := scale_mirror a.stepsize t a.lower a.upper
  have hch : (a.mirror t).checkStart = a.checkStart := checkStart_mirror a.toArgs t
  have hnl : (a.mirror t).nleap = a.nleap := rfl
  have hse : ∀ h, a.seeded R h = h := fun h => by unfold Sampling.Args.seeded; rw [hseed]
  have hse' : ∀ h, (a.mirror t).seeded R h = h := fun h => by
    unfold Sampling.Args.seeded; show (match a.seed with | some s => R.seed s | none => h) = h; rw [hseed]
  cases hfn : a.fn with
  | none =>
    have h1 : (a.mirror t).fn = none := by show Option.map _ a.fn = _; rw [hfn]; rfl
    unfold HMC.sample
    rw [hfn, h1]
    rfl
  | some fn =>
    have h1 : (a.mirror t).fn = some fun x => fn (vmirror t x) := by show Option.map _ a.fn = _; rw [hfn]; rfl
    unfold HMC.sample
    rw [hfn, h1, hch, hnl]
    cases a.checkStart with
    | error e => rfl
    | ok _ =>
      cases decide (a.nleap < 1) with
      | true => rfl
      | false =>
        cases hst : a.stepsize.scale a.lower a.upper with
        | error e => rw [hst] at hsc; erw [hsc]; rfl
        | ok step =>
          rw [hst] at hsc
          erw [hsc]
          dsimp only
          have hm1 : HMC.rest R (a.mirror t) (fun x => fn (vmirror t x)) step g' = HMC.restOf (HMC.badJac a.jac) a.badCallback a.maxiter
              a.callback (HMC.Par.mk R (fun x => fn (vmirror t x))
                     (HMC.gradOf (fun x => fn (vmirror t x)) (a.mirror t).jac a.fdStep a.extraArgs)
                     (a.mirror t).lower (a.mirror t).upper step a.nleap.toNat a.constraints a.callback.isSome a.returnAll)
              ((a.mirror t).first R g') := by
            have hj : HMC.badJac (a.mirror t).jac = HMC.badJac a.jac := by
              show HMC.badJac (Option.map _ a.jac) = _
              rcases a.jac with _ | _ | _ <;> rfl
            refine Eq.trans (HMC.rest_eq R (a.mirror t) _ _ g') ?_
            rw [hj, hse']
            rfl
          have hm2 := HMC.rest_eq R a fn step g
          rw [hse] at hm2
          rw [hm2]
          erw [hm1]
          refine HMC.Same.restOf (ψ := vmirror t) (T := T) (ε := (-1 : K)) (E := fun l l' => l'.Perm (l.map (vmirror t)))
            (P := HMC.Par.mk R fn (HMC.gradOf fn a.jac a.fdStep a.extraArgs) a.lower a.upper step a.nleap.toNat a.constraints
              a.callback.isSome a.returnAll)
            (P' := HMC.Par.mk R (fun x => fn (vmirror t x)) (HMC.gradOf (fun x => fn (vmirror t x)) (a.mirror t).jac a.fdStep a.extraArgs)
              (a.mirror t).lower (a.mirror t).upper step a.nleap.toNat a.constraints a.callback.isSome a.returnAll)
            ⟨evRel_perm, fun x => congrArg fn (vmirror_vmirror t x), fun q => ?_,
              fun q p => ?_, by ring, rfl, rfl, rfl, rfl, fun g => ?_, fun g => ?_⟩ (HMC.badJac a.jac) a.badCallback a.maxiter a.callback (hm)
          · dsimp only
            cases hj2 : a.jac with
            | some j =>
              have e : ∃ j', (a.mirror t).jac = some j' := ⟨_, by show Option.map _ a.jac = some _; rw [hj2]; rfl⟩
              obtain ⟨j', e⟩ := e
              rw [e]
              unfold HMC.gradOf
              dsimp only
              split_ifs <;> rfl
            | none =>
              have e : (a.mirror t).jac = none := by show Option.map _ a.jac = none; rw [hj2]; rfl
              rw [e]
              have hv : (vmirror t : Vec (Val K) a.ndim → Vec (Val K) a.ndim) = vaffine (fun _ => -1 * 1) t := by
                funext x; rw [mul_one]; exact vmirror_eq t x
              have := gradOf_vaffine (fn := fn) (fn' := fun x => fn (vmirror t x)) (c := (1 : K)) (ε := -1) one_pos (Or.inr rfl) t
                (fun x => by rw [← hv]; exact congrArg fn (vmirror_vmirror t x))
                (h := a.fdStep) (step := step) (step' := step) (fun j => (one_mul _).symm)
                (E := fun l l' => l'.Perm (l.map (vmirror t))) (fun x y h _ => by rw [hv]; exact h) q
              rw [← hv, one_mul] at this
              exact this
          · rw [vmirror_eq, vmirror_eq]
            exact drift_vaffine (fun _ => neg_ne_zero.2 one_ne_zero) t (fun j => rfl) q p
          · rw [neg_one_mul]
            exact hT.randn g
          · exact hT.rand g

/-- C98 for `hmc`: likewise, with reflected momenta and gradients.  The numerical gradient visits the two points on both sides of a
coordinate in the opposite order, so the evaluated points are the mirror images in another order.  Missing: as for `mcmc`. -/
theorem C98_hmc_partial {R : Rng σ K} {T : σ → σ} (hT : R.Mirrors T id) {a : HMC.Args K} {g : σ} (t : Nat → K)
    (hx : a.x0 ≠ none) (hseed : a.seed = none) :
    (∀ o, (HMC.sample R a g).1 = .ok o → ∃ o', (HMC.sample R (a.mirror t) (T g)).1 = .ok o' ∧
      o' = { o.map (vmirror t) T with evals := o'.evals } ∧ o'.evals.Perm (o.evals.map (vmirror t))) ∧
    ∀ e, (HMC.sample R a g).1 = .error e → (HMC.sample R (a.mirror t) (T g)).1 = .error e :=
  hmc_mirror hT t hseed (first_mirror a.toArgs t R T g hx)

end Stochopy.Props
