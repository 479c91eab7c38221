import Verif.Lemmas.OrderSampler
import Verif.Props.Order

/-! # The order of the variables does not matter: the samplers (C104) -/

set_option linter.unusedSectionVars false

namespace Stochopy.Props
open Stochopy Sampling
variable {K σ : Type} [Field K] [LinearOrder K] [IsStrictOrderedRing K] [NumFns K] {n : Nat}

theorem perIter_whole [FloorRing K] (n : Nat) : MCMC.perIter (1 : K) n = max 1 n := by
  unfold MCMC.perIter pyInt
  rw [one_mul, if_pos (Nat.cast_nonneg n)]
  show (max 1 ⌊(n : K)⌋).toNat = max 1 n
  rw [Int.floor_natCast]
  omega

/-- C104 for `mcmc` when all variables are moved at once (`perc = 1`): with the variables in another order (so are the bounds, the
starting point, the step sizes and the argument of the objective), the chain and the caller's step sizes afterwards are the same with
the variables in the other order.  `T₀` deals the uniform numbers of a drawn first point, `T` and `T'` the normal numbers of the
proposals.  Missing: moving some of the variables at a time (false, `C104_mcmc_violated`). -/
theorem C104_mcmc_partial [FloorRing K] {R : Rng σ K} {fuel : Nat} {a : MCMC.Args K} {g : σ} (hs : a.seed = none) (hall : a.perc = 1)
    {π : Equiv.Perm (Fin a.ndim)} {T₀ T T' : σ → σ} (h0 : a.x0 = none → Deals R.rand π T₀ T) (h1 : a.x0 ≠ none → T₀ = T)
    (hn : Deals R.randn π T T') (hu : ∀ g, R.rand (T' g) = ((R.rand g).1, T (R.rand g).2)) (hr : a.constraints = some "Reject" → T' = T) :
    MCMC.sample R fuel (a.reorder π) (T₀ g) =
      ((MCMC.sample R fuel a g).1.map (Sampling.Output.map (reorder π) T), (MCMC.sample R fuel a g).2.reorder π) := by
  have hlo : (a.reorder π).lower = reorder π a.lower := low_reorder a.toArgs π
  have hup : (a.reorder π).upper = reorder π a.upper := up_reorder a.toArgs π
  have hsc : ((a.reorder π).stepsize.scale (a.reorder π).lower (a.reorder π).upper : Except PyErr (Vec K a.ndim)) =
      (a.stepsize.scale a.lower a.upper).map (reorder π) := by
    rw [hlo, hup]; exact scale_reorder a.stepsize π a.lower a.upper
  have haf : (a.reorder π).stepsize.after (a.reorder π).lower (a.reorder π).upper = (a.stepsize.after a.lower a.upper).reorder π := by
    rw [hlo, hup]; exact after_reorder a.stepsize π a.lower a.upper
  have hch : (a.reorder π).checkStart = a.checkStart := checkStart_reorder a.toArgs π
  have hse : ∀ h, a.seeded R h = h := fun h => by unfold Sampling.Args.seeded; rw [hs]
  have hse' : ∀ h, (a.reorder π).seeded R h = h := fun h => by
    unfold Sampling.Args.seeded; show (match a.seed with | some s => R.seed s | none => h) = h; rw [hs]
  cases hfn : a.fn with
  | none =>
    have h1 : (a.reorder π).fn = none := by show Option.map _ a.fn = _; rw [hfn]; rfl
    unfold MCMC.sample
    rw [hfn, h1]
    rfl
  | some fn =>
    have h2 : (a.reorder π).fn = some fun x => fn (reorder π.symm x) := by show Option.map _ a.fn = _; rw [hfn]; rfl
    unfold MCMC.sample
    rw [hfn, h2, hch]
    cases a.checkStart with
    | error e => rfl
    | ok _ =>
      cases hst : a.stepsize.scale a.lower a.upper with
      | error e => rw [hst] at hsc; erw [hsc]; rfl
      | ok step =>
        rw [hst] at hsc
        erw [hsc]
        dsimp only [Except.map]
        refine Prod.ext ?_ haf
        dsimp only
        rw [MCMC.rest_eq, hse]
        refine Eq.trans (MCMC.rest_eq R fuel (a.reorder π) _ _ (T₀ g)) ?_
        rw [hse']
        refine MCMC.Dealt.restOf (π := π) (T := T) (T' := T') ?_ fuel a.perc a.badCallback a.maxiter a.callback ?_
        · exact {
            fn := fun x => congrArg fn (reorder_symm π x)
            R := rfl
            step := rfl
            per := by dsimp only; rw [hall]; exact perIter_whole _
            per' := rfl
            cons := rfl
            maxiter := rfl
            cb := rfl
            ra := rfl
            draws := ⟨hn, hu, hr⟩ }
        · exact first_reorder a.toArgs π R T₀ T g h0 h1

/-- C104 for `hmc`, whatever the objective: likewise.  The numerical gradient visits the coordinates in their order, so the points are
evaluated in another order. -/
theorem C104_hmc {R : Rng σ K} {a : HMC.Args K} {g : σ} (hs : a.seed = none)
    {π : Equiv.Perm (Fin a.ndim)} {T₀ T T' : σ → σ} (h0 : a.x0 = none → Deals R.rand π T₀ T) (h1 : a.x0 ≠ none → T₀ = T)
    (hn : Deals R.randn π T T') (hu : ∀ g, R.rand (T' g) = ((R.rand g).1, T (R.rand g).2)) (hr : a.constraints = some "Reject" → T' = T) :
    (∀ o, (HMC.sample R a g).1 = .ok o → ∃ o', (HMC.sample R (a.reorder π) (T₀ g)).1 = .ok o' ∧
      o' = { o.map (reorder π) T with evals := o'.evals } ∧ o'.evals.Perm (o.evals.map (reorder π))) ∧
    (∀ e, (HMC.sample R a g).1 = .error e → (HMC.sample R (a.reorder π) (T₀ g)).1 = .error e) ∧
    (HMC.sample R (a.reorder π) (T₀ g)).2 = (HMC.sample R a g).2.reorder π := by
  have hlo : (a.reorder π).lower = reorder π a.lower := low_reorder a.toArgs π
  have hup : (a.reorder π).upper = reorder π a.upper := up_reorder a.toArgs π
  have hsc : ((a.reorder π).stepsize.scale (a.reorder π).lower (a.reorder π).upper : Except PyErr (Vec K a.ndim)) =
      (a.stepsize.scale a.lower a.upper).map (reorder π) := by
    rw [hlo, hup]; exact scale_reorder a.stepsize π a.lower a.upper
  have haf : (a.reorder π).stepsize.after (a.reorder π).lower (a.reorder π).upper = (a.stepsize.after a.lower a.upper).reorder π := by
    rw [hlo, hup]; exact after_reorder a.stepsize π a.lower a.upper
  have hch : (a.reorder π).checkStart = a.checkStart := checkStart_reorder a.toArgs π
  have hnl : (a.reorder π).nleap = a.nleap := rfl
  have hse : ∀ h, a.seeded R h = h := fun h => by unfold Sampling.Args.seeded; rw [hs]
  have hse' : ∀ h, (a.reorder π).seeded R h = h := fun h => by
    unfold Sampling.Args.seeded; show (match a.seed with | some s => R.seed s | none => h) = h; rw [hs]
  suffices h : ExRel (OutRel (reorder π) T fun l l' => l'.Perm (l.map (reorder π))) (HMC.sample R a g).1
      ((HMC.sample R (a.reorder π) (T₀ g)).1 : Except PyErr (Sampling.Output σ K a.ndim)) ∧
      (HMC.sample R (a.reorder π) (T₀ g)).2 = (HMC.sample R a g).2.reorder π by
    obtain ⟨h, h2⟩ := h
    refine ⟨?_, ?_, h2⟩
    · intro o ho
      rw [ho] at h
      cases h' : ((HMC.sample R (a.reorder π) (T₀ g)).1 : Except PyErr (Sampling.Output σ K a.ndim)) with
      | error e => rw [h'] at h; exact h.elim
      | ok o' => rw [h'] at h; exact ⟨o', rfl, h.1, h.2⟩
    · intro e he
      rw [he] at h
      cases h' : ((HMC.sample R (a.reorder π) (T₀ g)).1 : Except PyErr (Sampling.Output σ K a.ndim)) with
      | error e => rw [h'] at h; exact congrArg Except.error (Eq.symm h)
      | ok o' => rw [h'] at h; exact h.elim
  cases hfn : a.fn with
  | none =>
    have h1 : (a.reorder π).fn = none := by show Option.map _ a.fn = _; rw [hfn]; rfl
    unfold HMC.sample
    rw [hfn, h1]
    exact ⟨rfl, rfl⟩
  | some fn =>
    have h2 : (a.reorder π).fn = some fun x => fn (reorder π.symm x) := by show Option.map _ a.fn = _; rw [hfn]; rfl
    unfold HMC.sample
    rw [hfn, h2, hch, hnl]
    cases a.checkStart with
    | error e => exact ⟨rfl, rfl⟩
    | ok _ =>
      cases decide (a.nleap < 1) with
      | true => exact ⟨rfl, rfl⟩
      | false =>
        cases hst : a.stepsize.scale a.lower a.upper with
        | error e => rw [hst] at hsc; erw [hsc]; exact ⟨rfl, rfl⟩
        | ok step =>
          rw [hst] at hsc
          erw [hsc]
          dsimp only [Except.map]
          refine ⟨?_, haf⟩
          have hm1 : HMC.rest R (a.reorder π) (fun x => fn (reorder π.symm x)) (reorder π step) (T₀ g) =
              HMC.restOf (HMC.badJac a.jac) a.badCallback a.maxiter
              a.callback (HMC.Par.mk R (fun x => fn (reorder π.symm x))
                     (HMC.gradOf (fun x => fn (reorder π.symm x)) (a.reorder π).jac a.fdStep a.extraArgs)
                     (a.reorder π).lower (a.reorder π).upper (reorder π step) a.nleap.toNat a.constraints a.callback.isSome a.returnAll)
              ((a.reorder π).first R (T₀ g)) := by
            have hj : HMC.badJac (a.reorder π).jac = HMC.badJac a.jac := by
              show HMC.badJac (Option.map _ a.jac) = _
              rcases a.jac with _ | _ | _ <;> rfl
            refine Eq.trans (HMC.rest_eq R (a.reorder π) _ _ (T₀ g)) ?_
            rw [hj, hse']
            rfl
          have hm2 := HMC.rest_eq R a fn step g
          rw [hse] at hm2
          rw [hm2]
          erw [hm1]
          refine HMC.Dealt.restOf (π := π) (T := T) (T' := T')
            (P := HMC.Par.mk R fn (HMC.gradOf fn a.jac a.fdStep a.extraArgs) a.lower a.upper step a.nleap.toNat a.constraints
              a.callback.isSome a.returnAll)
            (P' := HMC.Par.mk R (fun x => fn (reorder π.symm x)) (HMC.gradOf (fun x => fn (reorder π.symm x)) (a.reorder π).jac a.fdStep a.extraArgs)
              (a.reorder π).lower (a.reorder π).upper (reorder π step) a.nleap.toNat a.constraints a.callback.isSome a.returnAll)
            ⟨fun x => congrArg fn (reorder_symm π x), fun q => ?_, rfl, rfl, rfl, rfl, rfl, rfl, ⟨hn, hu, hr⟩⟩
            (HMC.badJac a.jac) a.badCallback a.maxiter a.callback (first_reorder a.toArgs π R T₀ T g h0 h1)
          dsimp only
          cases hj2 : a.jac with
          | some j =>
            have e : ∃ j', (a.reorder π).jac = some j' := ⟨_, by show Option.map _ a.jac = some _; rw [hj2]; rfl⟩
            obtain ⟨j', e⟩ := e
            rw [e]
            unfold HMC.gradOf
            dsimp only
            split_ifs <;> rfl
          | none =>
            have e : (a.reorder π).jac = none := by show Option.map _ a.jac = none; rw [hj2]; rfl
            rw [e]
            exact numericalGradient_reorder (π := π) (fn := fn) (fn' := fun x => fn (reorder π.symm x)) (fun x => congrArg fn (reorder_symm π x)) a.fdStep q

end Stochopy.Props
