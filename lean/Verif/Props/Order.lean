import Verif.Lemmas.OrderEvo
import Verif.Props.Mirror

/-! # The order of the variables does not matter (C104) -/

set_option linter.unusedSectionVars false

namespace Stochopy.Props
open Stochopy
variable {K σ : Type} [Field K] [LinearOrder K] [IsStrictOrderedRing K] {p n : Nat} [FloorRing K]

theorem lower_reorder {a : CommonArgs K} (π : Equiv.Perm (Fin a.ndim)) (axis : Nat) : (a.reorder π axis).lower = reorder π a.lower := by
  funext j
  exact congrArg (fun k => a.bounds.get [k, 0]) (natPerm_val π j)

theorem upper_reorder {a : CommonArgs K} (π : Equiv.Perm (Fin a.ndim)) (axis : Nat) : (a.reorder π axis).upper = reorder π a.upper := by
  funext j
  exact congrArg (fun k => a.bounds.get [k, 1]) (natPerm_val π j)

theorem x0Pop_reorder {a : CommonArgs K} (π : Equiv.Perm (Fin a.ndim)) : (a.reorder π 1).x0Pop = a.x0Pop.map fun x i => reorder π (x i) := by
  obtain ⟨b, _, x0, _, _, _, _, _, _, _, _, _, _⟩ := a
  cases x0 with
  | none => rfl
  | some x =>
    show some _ = some _
    congr 1
    funext i j
    exact congrArg (fun k => x.get [i.val, k]) (natPerm_val π j)

theorem x0Pop_none {a : CommonArgs K} (h : a.x0Pop = none) : a.x0 = none := by
  obtain ⟨b, _, x0, _, _, _, _, _, _, _, _, _, _⟩ := a
  cases x0 with
  | none => rfl
  | some x => cases h

/-- C104 for `de`: with the variables in another order (so are the bounds, the starting population and the argument of the
objective), and the random numbers dealt to the variables accordingly, the run is the same with the variables in the other order:
every strategy, both constraints, both updating modes, given or drawn starting population. -/
theorem C104_de {env : Env} (he : env.Ok) {R : Rng σ K} {fuel : Nat} {a : DE.Args K} (hs : a.seed = none)
    {π : Equiv.Perm (Fin a.ndim)} {T : σ → σ} (hu : Deals R.rand π T T)
    (hi : ∀ g, R.randint a.ndim (T g) = (natPerm π.symm (R.randint a.ndim g).1, T (R.randint a.ndim g).2))
    (hp : ∀ g, R.perm (a.p - 1) (T g) = ((R.perm (a.p - 1) g).1, T (R.perm (a.p - 1) g).2))
    (h0 : a.x0 = none → Deals (R.perm a.p) π T T) (g : σ) :
    DE.minimize env R fuel (a.reorder π) (T g) = (DE.minimize env R fuel a g).map fun o => o.reorder π T := by
  have hv : DE.validate (a.reorder π) = DE.validate a := by
    rw [DE.validate_tail, DE.validate_tail]
    obtain ⟨⟨_, fn, x0, _, _, _, _, _, _, _, _, _, _⟩, _, _, _, _, _⟩ := a
    cases fn <;> cases x0 <;> rfl
  cases hfn : a.fn with
  | none => rw [DE.minimize_none hfn]; exact DE.minimize_none (by show Option.map _ a.fn = _; rw [hfn]; rfl)
  | some fn =>
    rw [DE.minimize_some he hfn]
    refine (DE.minimize_some he (a := a.reorder π) (fn := fun x => fn (reorder π.symm x))
      (by show Option.map _ a.fn = _; rw [hfn]; rfl)).trans ?_
    rw [hv, map_bind_ex]
    refine bind_congr_ok fun (strat : DE.Strategy K a.p a.ndim) hval => ?_
    have hst : DE.strategyMap a.strategy = .ok strat := by
      rw [DE.validate_tail] at hval
      split_ifs at hval
      all_goals first
        | (cases hval)
        | (obtain ⟨st, h1, h2⟩ := bind_ok_iff.1 hval; cases h2 <;> exact h1)
    show (if a.sync = true ∧ a.backend = some "mpi" ∧ env.mpi4py = false then _ else _) = _
    split_ifs
    · rfl
    · rw [map_bind_ex]
      show (a.unpackBounds >>= _) = _
      congr 1
      funext _
      rw [map_bind_ex]
      show (DE.consMap a.constraints >>= _) = _
      congr 1
      funext cons
      have hg : a.seeded R g = g := by unfold CommonArgs.seeded; rw [hs]
      have hg' : (a.reorder π).seeded R (T g) = T g := by
        unfold CommonArgs.seeded
        rw [show (a.reorder π).seed = none from hs]
      rw [hg]
      have hlo : (a.reorder π).lower = reorder π a.lower := lower_reorder π 1
      have hup : (a.reorder π).upper = reorder π a.upper := upper_reorder π 1
      have hr : DE.ReorderedPar π
          { R := R, F := a.mutation, CR := a.recombination, strat := strat, cons := cons, lower := a.lower, upper := a.upper,
            maxiter := a.maxiter, xtol := a.xtol, ftol := a.ftol, obj := plainObj fn }
          { R := R, F := a.mutation, CR := a.recombination, strat := strat, cons := cons, lower := (a.reorder π).lower,
            upper := (a.reorder π).upper, maxiter := a.maxiter, xtol := a.xtol, ftol := a.ftol,
            obj := plainObj fun x => fn (reorder π.symm x) } :=
        { R := rfl, F := rfl, CR := rfl, cons := rfl, lower := hlo, upper := hup
          strat := fun i X gbest => strategyMap_reorder hst π i _ X gbest }
      have h := hr.dealt (sameProblem_reorder π fn a.xtol a.ftol) rfl hu hi hp
      have h2 := h.run a.sync a.cfg fuel a.x0Pop g fun h00 => by
        dsimp only
        rw [hlo, hup]
        exact lhs_reorder hu (h0 (x0Pop_none h00)) a.lower a.upper g
      exact (congrArg₂ (fun x gg => DE.de _ a.sync a.cfg fuel x gg) (x0Pop_reorder π) hg').trans h2

variable [NumFns K]

/-- C104 for `cpso`: with or without restarts, with or without 'Shrink', both updating modes. -/
theorem C104_cpso {env : Env} (he : env.Ok) {R : Rng σ K} {srt : Argsort K} {fuel : Nat} {a : CPSO.Args K} (hs : a.seed = none)
    {π : Equiv.Perm (Fin a.ndim)} {T : σ → σ} (hu : Deals R.rand π T T) (h0 : a.x0 = none → Deals (R.perm a.p) π T T) (g : σ) :
    CPSO.minimize env R srt fuel (a.reorder π) (T g) = (CPSO.minimize env R srt fuel a g).map fun o => o.reorder π T := by
  have hv : CPSO.validate (a.reorder π) = CPSO.validate a := by
    obtain ⟨⟨_, fn, x0, _, _, _, _, _, _, _, _, _, _⟩, _, _, _, _, _, _⟩ := a
    cases fn <;> cases x0 <;> rfl
  cases hfn : a.fn with
  | none => rw [CPSO.minimize_none hfn]; exact CPSO.minimize_none (by show Option.map _ a.fn = _; rw [hfn]; rfl)
  | some fn =>
    rw [CPSO.minimize_some he hfn]
    refine (CPSO.minimize_some he (a := a.reorder π) (fn := fun x => fn (reorder π.symm x))
      (by show Option.map _ a.fn = _; rw [hfn]; rfl)).trans ?_
    rw [hv, map_bind_ex]
    congr 1
    funext _
    show (if a.sync = true ∧ a.backend = some "mpi" ∧ env.mpi4py = false then _ else _) = _
    split_ifs
    · rfl
    · rw [map_bind_ex]
      show (a.unpackBounds >>= _) = _
      congr 1
      funext _
      rw [map_bind_ex]
      congr 1
      funext cons
      have hg : a.seeded R g = g := by unfold CommonArgs.seeded; rw [hs]
      have hg' : (a.reorder π).seeded R (T g) = T g := by
        unfold CommonArgs.seeded
        rw [show (a.reorder π).seed = none from hs]
      rw [hg]
      have hlo : (a.reorder π).lower = reorder π a.lower := lower_reorder π 1
      have hup : (a.reorder π).upper = reorder π a.upper := upper_reorder π 1
      have hr : CPSO.ReorderedPar π
          { R := R, argsort := srt, w := a.inertia, c1 := a.cognitivity, c2 := a.sociability, gamma := a.competitivity,
            cons := cons, lower := a.lower, upper := a.upper, maxiter := a.maxiter, xtol := a.xtol, ftol := a.ftol,
            obj := plainObj fn }
          { R := R, argsort := srt, w := a.inertia, c1 := a.cognitivity, c2 := a.sociability, gamma := a.competitivity,
            cons := cons, lower := (a.reorder π).lower, upper := (a.reorder π).upper, maxiter := a.maxiter,
            xtol := a.xtol, ftol := a.ftol, obj := plainObj fun x => fn (reorder π.symm x) } :=
        { R := rfl, argsort := rfl, w := rfl, c1 := rfl, c2 := rfl, gamma := rfl, cons := rfl, maxiter := rfl, lower := hlo, upper := hup }
      have h := hr.dealt (p := a.p) (sameProblem_reorder π fn a.xtol a.ftol) hu
      have h2 := h.run a.sync a.cfg fuel a.x0Pop g fun h00 => by
        dsimp only
        rw [hlo, hup]
        exact lhs_reorder hu (h0 (x0Pop_none h00)) a.lower a.upper g
      exact (congrArg₂ (fun x gg => CPSO.cpso _ a.sync a.cfg fuel x gg) (x0Pop_reorder π) hg').trans h2

/-- C104 for `pso`. -/
theorem C104_pso {env : Env} (he : env.Ok) {R : Rng σ K} {srt : Argsort K} {fuel : Nat} {a : PSO.Args K} (hs : a.seed = none)
    {π : Equiv.Perm (Fin a.ndim)} {T : σ → σ} (hu : Deals R.rand π T T) (h0 : a.x0 = none → Deals (R.perm a.p) π T T) (g : σ) :
    PSO.minimize env R srt fuel (a.reorder π) (T g) = (PSO.minimize env R srt fuel a g).map fun o => o.reorder π T :=
  C104_cpso he (a := a.toCPSO) hs hu h0 g

theorem _root_.Stochopy.Evo.validate_reorder {a : Evo.Args K} (π : Equiv.Perm (Fin a.ndim)) : (a.reorder π).validate = a.validate := by
  obtain ⟨⟨_, fn, x0, _, _, _, _, _, _, _, _, _, _⟩, _, _, _⟩ := a
  cases fn <;> cases x0 <;> rfl

theorem _root_.Stochopy.Evo.firstMean_reorder {R : Rng σ K} {a : Evo.Args K} {π : Equiv.Perm (Fin a.ndim)} {T : σ → σ}
    (h0 : a.x0 = none → Deals R.rand π T T) (g : σ) :
    (a.reorder π).firstMean R (T g) = (a.firstMean R g).map fun m => (reorder π m.1, T m.2) := by
  have hlo : (a.reorder π).lower = reorder π a.lower := lower_reorder π 0
  have hup : (a.reorder π).upper = reorder π a.upper := upper_reorder π 0
  obtain ⟨⟨b, fn, x0, _, _, _, _, _, _, _, _, _, _⟩, _, _, _⟩ := a
  cases x0 with
  | none =>
    show Except.ok (fun j : Fin b.len => unif (-1) 1 ((drawVec R.rand b.len (T g)).1 j), (drawVec R.rand b.len (T g)).2) =
      Except.ok (reorder π fun j : Fin b.len => unif (-1) 1 ((drawVec R.rand b.len g).1 j), T (drawVec R.rand b.len g).2)
    rw [h0 rfl g]
    rfl
  | some x =>
    have e : ∀ k, (fun j : Fin b.len => b.get [natPerm π j, k]) = reorder π fun j => b.get [j, k] := by
      intro k; funext j; rw [natPerm_val]; rfl
    have ex : (fun j : Fin b.len => x.get [natPerm π j]) = reorder π fun j => x.get [j] := by
      funext j; rw [natPerm_val]; rfl
    have hne : (∀ j : Fin b.len, b.get [natPerm π j, 0] ≠ b.get [natPerm π j, 1]) = ∀ j : Fin b.len, b.get [j, 0] ≠ b.get [j, 1] := by
      simp only [natPerm_val]
      exact forall_reorder π fun j : Fin b.len => b.get [j, 0] ≠ b.get [j, 1]
    show (Evo.need (∀ j : Fin b.len, b.get [natPerm π j, 0] ≠ b.get [natPerm π j, 1]) >>= fun _ =>
      Except.ok (Evo.standardize (fun j : Fin b.len => b.get [natPerm π j, 0]) (fun j => b.get [natPerm π j, 1]) (fun j => x.get [natPerm π j]), T g)) =
      Except.map _ (Evo.need (∀ j : Fin b.len, b.get [j, 0] ≠ b.get [j, 1]) >>= fun _ =>
        Except.ok (Evo.standardize (fun j : Fin b.len => b.get [j, 0]) (fun j => b.get [j, 1]) (fun j => x.get [j]), g))
    simp only [hne, map_bind_ex, e, ex]
    rfl

theorem _root_.Stochopy.Evo.reordered {a : Evo.Args K} {srt : Argsort K} {fn : Vec K a.ndim → Val K} (π : Equiv.Perm (Fin a.ndim))
    (pen : Bool) :
    Evo.ReorderedPar π (a.par srt (plainObj fn) pen) ((a.reorder π).par srt (plainObj fun x => fn (reorder π.symm x)) pen) where
  lower := lower_reorder π 0
  upper := upper_reorder π 0
  pop X := by
    funext i
    show fn _ = fn _
    rw [reorder_symm]
  srt := rfl
  xtol := rfl
  ftol := rfl
  mueff := rfl
  insigma := rfl
  ilim := rfl
  pen := rfl

/-- C104 for `vdcma`, with or without 'Penalize'. -/
theorem C104_vdcma {env : Env} (he : env.Ok) {R : Rng σ K} {srt : Argsort K} {fuel : Nat} {a : Evo.Args K} (hs : a.seed = none)
    {π : Equiv.Perm (Fin a.ndim)} {T : σ → σ} (hn : Deals R.randn π T T) (h0 : a.x0 = none → Deals R.rand π T T)
    (junk : Vec K a.ndim) (g : σ) :
    VDCMA.minimize env R srt fuel (a.reorder π) (reorder π junk) (T g) =
      (VDCMA.minimize env R srt fuel a junk g).map fun o => o.reorder π T := by
  cases hfn : a.fn with
  | none =>
    rw [VDCMA.minimize_none hfn]
    exact VDCMA.minimize_none (a := a.reorder π) (by show Option.map _ a.fn = _; rw [hfn]; rfl)
  | some fn =>
    rw [VDCMA.minimize_some he hfn]
    refine (VDCMA.minimize_some he (a := a.reorder π) (fn := fun x => fn (reorder π.symm x))
      (by show Option.map _ a.fn = _; rw [hfn]; rfl)).trans ?_
    rw [Evo.validate_reorder, map_bind_ex]
    congr 1
    funext _
    show (if a.backend = some "mpi" ∧ env.mpi4py = false then _ else _) = _
    by_cases hmpi : a.backend = some "mpi" ∧ env.mpi4py = false
    · rw [if_pos hmpi, if_pos hmpi]; rfl
    · rw [if_neg hmpi, if_neg hmpi, map_bind_ex]
      show (a.unpackBounds >>= _) = _
      congr 1
      funext _
      rw [map_bind_ex]
      show (Evo.consMap a.constraints >>= _) = _
      congr 1
      funext pen
      have hg : a.seeded R g = g := by unfold CommonArgs.seeded; rw [hs]
      have hg' : (a.reorder π).seeded R (T g) = T g := by
        unfold CommonArgs.seeded
        rw [show (a.reorder π).seed = none from hs]
      show ((a.reorder π).firstMean R ((a.reorder π).seeded R (T g)) >>= _) = Except.map _ (a.firstMean R (a.seeded R g) >>= _)
      rw [hg, hg']
      refine (congrArg (· >>= _) (Evo.firstMean_reorder h0 g)).trans ((bind_map_ex ..).trans (Eq.trans ?_ (map_bind_ex ..).symm))
      refine bind_congr_ok fun m _ => ?_
      by_cases hd : 0 < a.ndim ∧ 0 < a.p ∧ 0 < a.mu ∧ a.mu ≤ a.p
      · rw [dif_pos hd]
        refine (dif_pos hd).trans ?_
        have h1 := (Evo.reordered (a := a) (srt := srt) (fn := fn) π pen).run (c := a.cfg)
          (VDCMA.fair (p := a.p) { R := R, mu := a.mu, hmu := hd.2.2.2 } hn) (T := T) (rng := VDCMA.State.rng)
          (fun _ => rfl) fuel (VDCMA.start R m.1 junk a.sigma m.2)
        rw [← VDCMA.start_deal hn] at h1
        exact h1
      · rw [dif_neg hd]
        exact dif_neg hd

end Stochopy.Props
