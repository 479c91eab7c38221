import Verif.Lemmas.SamplerUnits
import Verif.Props.Affine

/-! # Units and origins do not matter: the samplers (C72) -/

set_option linter.unusedSectionVars false

namespace Stochopy.Props
open Stochopy Sampling
variable {K σ : Type} [Field K] [LinearOrder K] [IsStrictOrderedRing K] [NumFns K] {n : Nat}

/-- C72 for `mcmc`: every variable may be measured in its own unit and from its own origin. -/
theorem C72_mcmc [IntParts K] {R : Rng σ K} {fuel : Nat} {a : MCMC.Args K} {g : σ} {s : Nat → K} (hs : ∀ j, 0 < s j) (t : Nat → K) :
    (MCMC.sample R fuel (a.affine s t) g).1 = (MCMC.sample R fuel a g).1.map (Sampling.Output.map (vaffine s t) id) := by
  have hsc : ((a.affine s t).stepsize.scale (a.affine s t).lower (a.affine s t).upper : Except PyErr (Vec K a.ndim)) =
      (a.stepsize.scale a.lower a.upper).map fun (v : Vec K a.ndim) (j : Fin a.ndim) => s j * v j :=
    scale_affine a.stepsize s t a.lower a.upper
  have hch : (a.affine s t).checkStart = a.checkStart := checkStart_affine a.toArgs s t
  cases hfn : a.fn with
  | none =>
    have h1 : (a.affine s t).fn = none := by show Option.map _ a.fn = _; rw [hfn]; rfl
    unfold MCMC.sample
    rw [hfn, h1]
    rfl
  | some fn =>
    have h1 : (a.affine s t).fn = some fun x => fn fun j => Val.divBy (x j - .fin (t j)) (s j) := by
      show Option.map _ a.fn = _; rw [hfn]; rfl
    unfold MCMC.sample
    rw [hfn, h1, hch]
    cases a.checkStart with
    | error e => rfl
    | ok _ =>
      cases hst : a.stepsize.scale a.lower a.upper with
      | error e => rw [hst] at hsc; erw [hsc]; rfl
      | ok step =>
        rw [hst] at hsc
        erw [hsc]
        dsimp only [Except.map]
        rw [MCMC.rest_eq]
        refine Eq.trans (MCMC.rest_eq R fuel (a.affine s t) _ _ g) ?_
        refine MCMC.Same.restOf (ψ := vaffine s t) (T := id) (ε := 1) ?_ fuel a.perc a.badCallback a.maxiter a.callback ?_
        · exact {
            fn := fun x => congrArg fn (funext fun j => Val.divBy_mul (hs j) (x j) (t j))
            pert := perturb_vaffine (fun j => (hs j).ne') t fun j => one_mul _
            per := rfl
            cons := rfl
            maxiter := rfl
            cb := rfl
            ra := rfl
            randn := fun g => by rw [one_mul]; rfl
            rand := fun g => rfl }
        · exact first_affine a.toArgs s t R _

/-- C72 for `hmc`: another common unit and other origins, with the step of the numerical gradient, a length, converted too. -/
theorem C72_hmc {R : Rng σ K} {a : HMC.Args K} {g : σ} {c : K} (hc : 0 < c) (t : Nat → K) :
    (HMC.sample R (a.affine c t) g).1 = (HMC.sample R a g).1.map (Sampling.Output.map (vaffine (fun _ => c) t) id) := by
  have hsc : ((a.affine c t).stepsize.scale (a.affine c t).lower (a.affine c t).upper : Except PyErr (Vec K a.ndim)) =
      (a.stepsize.scale a.lower a.upper).map fun (v : Vec K a.ndim) (j : Fin a.ndim) => c * v j :=
    scale_affine a.stepsize (fun _ => c) t a.lower a.upper
  have hch : (a.affine c t).checkStart = a.checkStart := checkStart_affine a.toArgs (fun _ => c) t
  have hnl : (a.affine c t).nleap = a.nleap := rfl
  cases hfn : a.fn with
  | none =>
    have h1 : (a.affine c t).fn = none := by show Option.map _ a.fn = _; rw [hfn]; rfl
    unfold HMC.sample
    rw [hfn, h1]
    rfl
  | some fn =>
    have h1 : (a.affine c t).fn = some fun x => fn fun j => Val.divBy (x j - .fin (t j)) c := by
      show Option.map _ a.fn = _; rw [hfn]; rfl
    unfold HMC.sample
    rw [hfn, h1, hch, hnl]
    cases a.checkStart with
    | error e => rfl
    | ok _ =>
      cases decide (a.nleap < 1) with
      | true => rfl
      | false =>
        cases hst : a.stepsize.scale a.lower a.upper with
        | error e => rw [hst] at hsc; erw [hsc]; rfl
        | ok step =>
          rw [hst] at hsc
          erw [hsc]
          dsimp only [Except.map]
          rw [HMC.rest_eq]
          refine Eq.trans (HMC.rest_eq R (a.affine c t) _ _ g) ?_
          have hj : HMC.badJac (a.affine c t).jac = HMC.badJac a.jac := by
            show HMC.badJac (Option.map _ a.jac) = _
            rcases a.jac with _ | _ | _ <;> rfl
          rw [hj]
          have key := HMC.Same.restOf (ψ := vaffine (fun _ => c) t) (T := id) (ε := (1 : K)) (E := fun l l' => l' = l.map (vaffine (fun _ => c) t))
            (P := { R := R, fn := fn, G := HMC.gradOf fn a.jac a.fdStep a.extraArgs, lower := a.lower, upper := a.upper, step := step,
                    nleap := a.nleap.toNat, constraints := a.constraints, hasCallback := a.callback.isSome, returnAll := a.returnAll })
            (P' := { R := R, fn := fun x => fn fun j => Val.divBy (x j - .fin (t j)) c,
                     G := HMC.gradOf (fun x => fn fun j => Val.divBy (x j - .fin (t j)) c) (a.affine c t).jac (c * a.fdStep) a.extraArgs,
                     lower := (a.affine c t).lower, upper := (a.affine c t).upper, step := fun j => c * step j,
                     nleap := a.nleap.toNat, constraints := a.constraints, hasCallback := a.callback.isSome, returnAll := a.returnAll })
            ⟨evRel_map, fun x => congrArg fn (funext fun j => Val.divBy_mul hc (x j) (t j)), fun q => ?_,
              drift_vaffine (fun _ => hc.ne') t fun j => one_mul _, one_mul 1, rfl, rfl, rfl, rfl, fun g => by rw [one_mul]; rfl,
              fun g => rfl⟩ (HMC.badJac a.jac) a.badCallback a.maxiter a.callback (first_affine a.toArgs (fun _ => c) t R (a.seeded R g))
          · refine ExRel.map_eq key fun o o' ho => ?_
            obtain ⟨h1, h2⟩ := ho
            rw [h1, h2]
            rfl
          · dsimp only
            cases hj2 : a.jac with
            | some j =>
              have e : ∃ j', (a.affine c t).jac = some j' := ⟨_, by show Option.map _ a.jac = some _; rw [hj2]; rfl⟩
              obtain ⟨j', e⟩ := e
              rw [e]
              unfold HMC.gradOf
              dsimp only
              split_ifs <;> rfl
            | none =>
              have e : (a.affine c t).jac = none := by show Option.map _ a.jac = none; rw [hj2]; rfl
              rw [e]
              have := gradOf_vaffine (fn := fn) (fn' := fun x => fn fun j => Val.divBy (x j - .fin (t j)) c) (ε := 1) hc (Or.inl rfl) t
                (fun x => by rw [one_mul]; exact congrArg fn (funext fun j => Val.divBy_mul hc (x j) (t j)))
                (h := a.fdStep) (step := step) (step' := fun j => c * step j) (fun j => rfl)
                (E := fun l l' => l' = l.map (vaffine (fun _ => 1 * c) t)) (fun x y _ h => h rfl) q
              simp only [one_mul] at this
              exact this

end Stochopy.Props
