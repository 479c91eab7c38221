import Verif.Lemmas.Mirror
import Verif.Lemmas.MirrorEvo
import Verif.Props.Affine

/-! # No direction is preferred (C98) -/

set_option linter.unusedSectionVars false

namespace Stochopy.Props
open Stochopy
variable {K σ : Type} [Field K] [LinearOrder K] [IsStrictOrderedRing K] {p n : Nat}

theorem sameProblem_mirror (t : Nat → K) (fn : Vec K n → Val K) (xtol : K) (ftol : Val K) :
    SameProblem (fun v => v) (mirror t) (plainObj fn) (plainObj fun x => fn (mirror t x)) xtol xtol ftol ftol where
  rising := rising_id
  pop X := by
    funext i
    show fn _ = fn _
    rw [mirror_mirror]
  one x := by
    show fn _ = fn _
    rw [mirror_mirror]
  ftol := rfl
  dist a b := distLe_mirror t a b xtol

variable [FloorRing K]

/-- C98 for `de`: reflected box, starting population and objective give the reflected run, with the same random numbers: the
evaluated points, the callbacks and the result are the mirror images, with the same values, counts and status, and the same exception
is raised.  Missing: the Latin hypercube of the default `x0` (false, `C98_de_violated`) and the constraint 'Random', whose new
coordinates are the mirror images only in distribution. -/
theorem C98_de_partial {env : Env} (he : env.Ok) {R : Rng σ K} {fuel : Nat} {a : DE.Args K} {g : σ} (t : Nat → K)
    (hx : a.x0 ≠ none) (hc : a.constraints = none) :
    DE.minimize env R fuel (a.mirror t) g = (DE.minimize env R fuel a g).map (Output.map id (mirror t) (mirror t)) := by
  have hv : DE.validate (a.mirror t) = DE.validate a := by
    rw [DE.validate_tail, DE.validate_tail]
    obtain ⟨⟨_, fn, x0, _, _, _, _, _, _, _, _, _, _⟩, _, _, _, _, _⟩ := a
    cases fn <;> cases x0 <;> rfl
  have hx' : (a.mirror t).x0Pop = a.x0Pop.map fun x i => mirror t (x i) := by
    obtain ⟨⟨_, _, x0, _, _, _, _, _, _, _, _, _, _⟩, _, _, _, _, _⟩ := a
    cases x0 <;> rfl
  have hx0 : a.x0Pop ≠ none := by
    obtain ⟨⟨_, _, x0, _, _, _, _, _, _, _, _, _, _⟩, _, _, _, _, _⟩ := a
    cases x0
    · exact absurd rfl hx
    · exact Option.some_ne_none _
  cases hfn : a.fn with
  | none => rw [DE.minimize_none hfn, DE.minimize_none (by show Option.map _ a.fn = _; rw [hfn]; rfl)]; rfl
  | some fn =>
    rw [DE.minimize_some he hfn]
    refine (DE.minimize_some he (a := a.mirror t) (fn := fun x => fn (mirror t x))
      (by show Option.map _ a.fn = _; rw [hfn]; rfl)).trans ?_
    rw [hv, map_bind_ex]
    refine bind_congr_ok fun (strat : DE.Strategy K a.p a.ndim) hval => ?_
    have hst : DE.strategyMap a.strategy = .ok strat := by
      rw [DE.validate_tail] at hval
      split_ifs at hval
      all_goals first
        | (cases hval)
        | (obtain ⟨st, h1, h2⟩ := bind_ok_iff.1 hval; cases h2 <;> exact h1)
    have ha : AffineStrategy (fun _ => -1) t strat := affine_strategyMap _ _ _ hst
    show (if a.sync = true ∧ a.backend = some "mpi" ∧ env.mpi4py = false then _ else _) = _
    split_ifs
    · rfl
    · rw [map_bind_ex]
      show (a.unpackBounds >>= _) = _
      congr 1
      funext _
      rw [map_bind_ex]
      show (DE.consMap a.constraints >>= _) = _
      rw [hc]
      show DE.de _ _ _ _ _ _ = Except.map _ (DE.de _ _ _ _ _ _)
      have h : DE.Same (fun v => v) (mirror t)
          { R := R, F := a.mutation, CR := a.recombination, strat := strat, cons := .none, lower := a.lower, upper := a.upper,
            maxiter := a.maxiter, xtol := a.xtol, ftol := a.ftol, obj := plainObj fn }
          { R := R, F := a.mutation, CR := a.recombination, strat := strat, cons := .none, lower := mirror t a.upper,
            upper := mirror t a.lower, maxiter := a.maxiter, xtol := a.xtol, ftol := a.ftol,
            obj := plainObj fun x => fn (mirror t x) } :=
        { prob := sameProblem_mirror t fn a.xtol a.ftol
          maxiter := rfl
          R := rfl
          sync := by rw [mirror_affine]; exact candSync_none rfl rfl rfl rfl rfl rfl ha
          async := by rw [mirror_affine]; exact fun r1 _ => candAsync_none rfl rfl rfl rfl rfl rfl ha r1 }
      have h2 := h.run a.sync a.cfg fuel a.x0Pop (a.seeded R g) fun h0 => absurd h0 hx0
      exact (congrArg (fun x => DE.de _ a.sync a.cfg fuel x (a.seeded R g)) hx').trans h2

variable [NumFns K]

/-- C98 for `cpso`, with or without 'Shrink'.  Missing: the Latin hypercube of the default `x0` (false) and restarted particles, whose
new positions are the mirror images only in distribution. -/
theorem C98_cpso_partial {env : Env} (he : env.Ok) {R : Rng σ K} {srt : Argsort K} {fuel : Nat} {a : CPSO.Args K} {g : σ}
    (t : Nat → K) (hx : a.x0 ≠ none) (hr : a.competitivity = none ∨ a.competitivity = some 0) :
    CPSO.minimize env R srt fuel (a.mirror t) g =
      (CPSO.minimize env R srt fuel a g).map (Output.map id (mirror t) (mirror t)) := by
  have hv : CPSO.validate (a.mirror t) = CPSO.validate a := by
    obtain ⟨⟨_, fn, x0, _, _, _, _, _, _, _, _, _, _⟩, _, _, _, _, _, _⟩ := a
    cases fn <;> cases x0 <;> rfl
  have hx' : (a.mirror t).x0Pop = a.x0Pop.map fun x i => mirror t (x i) := by
    obtain ⟨⟨_, _, x0, _, _, _, _, _, _, _, _, _, _⟩, _, _, _, _, _, _⟩ := a
    cases x0 <;> rfl
  have hx0 : a.x0Pop ≠ none := by
    obtain ⟨⟨_, _, x0, _, _, _, _, _, _, _, _, _, _⟩, _, _, _, _, _, _⟩ := a
    cases x0
    · exact absurd rfl hx
    · exact Option.some_ne_none _
  cases hfn : a.fn with
  | none => rw [CPSO.minimize_none hfn, CPSO.minimize_none (by show Option.map _ a.fn = _; rw [hfn]; rfl)]; rfl
  | some fn =>
    rw [CPSO.minimize_some he hfn]
    refine (CPSO.minimize_some he (a := a.mirror t) (fn := fun x => fn (mirror t x))
      (by show Option.map _ a.fn = _; rw [hfn]; rfl)).trans ?_
    rw [hv, map_bind_ex]
    congr 1
    funext _
    show (if a.sync = true ∧ a.backend = some "mpi" ∧ env.mpi4py = false then _ else _) = _
    split_ifs
    · rfl
    · rw [map_bind_ex]
      show (a.unpackBounds >>= _) = _
      congr 1
      funext _
      rw [map_bind_ex]
      congr 1
      funext cons
      have h : CPSO.Same a.p (fun v => v) (mirror t) (fun v j => -v j)
          { R := R, argsort := srt, w := a.inertia, c1 := a.cognitivity, c2 := a.sociability, gamma := a.competitivity,
            cons := cons, lower := a.lower, upper := a.upper, maxiter := a.maxiter, xtol := a.xtol, ftol := a.ftol,
            obj := plainObj fn }
          { R := R, argsort := srt, w := a.inertia, c1 := a.cognitivity, c2 := a.sociability, gamma := a.competitivity,
            cons := cons, lower := mirror t a.upper, upper := mirror t a.lower, maxiter := a.maxiter,
            xtol := a.xtol, ftol := a.ftol, obj := plainObj fun x => fn (mirror t x) } :=
        { prob := sameProblem_mirror t fn a.xtol a.ftol
          maxiter := rfl
          R := rfl
          zero := by funext j; simp
          mutation := mutation_mirror rfl rfl rfl rfl rfl rfl
          post := by
            intro it s
            unfold CPSO.post
            dsimp only
            rcases hr with h | h <;> rw [h]
            simp }
      have h2 := h.run a.sync a.cfg fuel a.x0Pop (a.seeded R g) fun h0 => absurd h0 hx0
      exact (congrArg (fun x => CPSO.cpso _ a.sync a.cfg fuel x (a.seeded R g)) hx').trans h2

/-- C98 for `pso`, with or without 'Shrink'.  Missing: the Latin hypercube of the default `x0` (false). -/
theorem C98_pso_partial {env : Env} (he : env.Ok) {R : Rng σ K} {srt : Argsort K} {fuel : Nat} {a : PSO.Args K} {g : σ}
    (t : Nat → K) (hx : a.x0 ≠ none) :
    PSO.minimize env R srt fuel (a.mirror t) g =
      (PSO.minimize env R srt fuel a g).map (Output.map id (mirror t) (mirror t)) :=
  C98_cpso_partial he (a := a.toCPSO) t hx (Or.inl rfl)

theorem _root_.Stochopy.Evo.reflected {a : Evo.Args K} {srt : Argsort K} {fn : Vec K a.ndim → Val K} (t : Nat → K) :
    Evo.Reflected (mirror t) (a.par srt (plainObj fn) false)
      ((a.mirror t).par srt (plainObj fun x => fn (mirror t x)) false) where
  unst x := by
    funext j
    show -x j * (1 / 2 * ((t j - a.bounds.get [j, 0]) - (t j - a.bounds.get [j, 1]))) +
        1 / 2 * ((t j - a.bounds.get [j, 0]) + (t j - a.bounds.get [j, 1])) =
      t j - (x j * (1 / 2 * (a.bounds.get [j, 1] - a.bounds.get [j, 0])) + 1 / 2 * (a.bounds.get [j, 1] + a.bounds.get [j, 0]))
    ring
  pop X := by
    funext i
    show fn _ = fn _
    rw [mirror_mirror]
  srt := rfl
  xtol := rfl
  ftol := rfl
  insigma := rfl
  ilim := rfl
  pen := rfl
  pen' := rfl

theorem _root_.Stochopy.Evo.validate_mirror {a : Evo.Args K} (t : Nat → K) : (a.mirror t).validate = a.validate := by
  obtain ⟨⟨_, fn, x0, _, _, _, _, _, _, _, _, _, _⟩, _, _, _⟩ := a
  cases fn <;> cases x0 <;> rfl

theorem _root_.Stochopy.Evo.firstMean_mirror {R : Rng σ K} {T : σ → σ} {ρ : K → K} (hR : R.Mirrors T ρ) {a : Evo.Args K}
    (hρ : a.x0 = none → ∀ u, ρ u = 1 - u) (t : Nat → K) (g : σ) :
    (a.mirror t).firstMean R (T g) = (a.firstMean R g).map fun m => (fun j => -m.1 j, T m.2) := by
  obtain ⟨⟨b, fn, x0, _, _, _, _, _, _, _, _, _, _⟩, _, _, _⟩ := a
  cases x0 with
  | none =>
    have h := drawVec_map (d := R.rand) (d' := R.rand) (T := T) (f := ρ) hR.rand b.len g
    show Except.ok (fun j : Fin b.len => unif (-1) 1 ((drawVec R.rand b.len (T g)).1 j), (drawVec R.rand b.len (T g)).2) =
      Except.ok (fun j : Fin b.len => -unif (-1) 1 ((drawVec R.rand b.len g).1 j), T (drawVec R.rand b.len g).2)
    rw [h]
    congr 2
    funext j
    dsimp only
    rw [hρ rfl]
    unfold unif
    ring
  | some x =>
    have e : ∀ j : Fin b.len, (t j - b.get [j, 1] ≠ t j - b.get [j, 0]) ↔ b.get [j, 0] ≠ b.get [j, 1] := by
      intro j
      exact not_congr ⟨fun h => (sub_right_injective h).symm, fun h => by rw [h]⟩
    show (Evo.need (∀ j : Fin b.len, t j - b.get [j, 1] ≠ t j - b.get [j, 0]) >>= fun _ =>
      Except.ok (Evo.standardize (fun j : Fin b.len => t j - b.get [j, 1]) (fun j => t j - b.get [j, 0]) (fun j => t j - x.get [j]), T g)) =
      Except.map _ (Evo.need (∀ j : Fin b.len, b.get [j, 0] ≠ b.get [j, 1]) >>= fun _ =>
        Except.ok (Evo.standardize (fun j : Fin b.len => b.get [j, 0]) (fun j => b.get [j, 1]) (fun j => x.get [j]), g))
    simp only [e, map_bind_ex]
    congr 1
    funext _
    show Except.ok _ = Except.ok _
    congr 1
    refine Prod.ext ?_ rfl
    funext j
    dsimp only [Evo.standardize]
    rw [show t j - x.get [j] - 1 / 2 * (t j - b.get [j, 0] + (t j - b.get [j, 1])) = -(x.get [j] - 1 / 2 * (b.get [j, 1] + b.get [j, 0])) by ring,
      show 1 / 2 * (t j - b.get [j, 0] - (t j - b.get [j, 1])) = 1 / 2 * (b.get [j, 1] - b.get [j, 0]) by ring, neg_div]

/-- From two first means that are mirror images the two runs are. -/
theorem cmaes_mirror {env : Env} (he : env.Ok) {R : Rng σ K} {T : σ → σ} {ρ : K → K} (hR : R.Mirrors T ρ) {srt : Argsort K}
    {eigh : CMAES.Eigh K} {fuel : Nat} {a : Evo.Args K} (hc : a.constraints = none) (hs : a.seed = none)
    (hf : 0 < fuel) (t : Nat → K) (junk junk' : Vec K a.ndim) {g g' : σ}
    (hm : (a.mirror t).firstMean R g' = (a.firstMean R g).map fun m => (fun j => -m.1 j, T m.2)) :
    CMAES.minimize env R srt eigh fuel (a.mirror t) junk' g' =
      (CMAES.minimize env R srt eigh fuel a junk g).map fun o => o.mirror t T := by
  cases hfn : a.fn with
  | none =>
    rw [CMAES.minimize_none hfn]
    exact CMAES.minimize_none (a := a.mirror t) (by show Option.map _ a.fn = _; rw [hfn]; rfl)
  | some fn =>
    rw [CMAES.minimize_some he hfn]
    refine (CMAES.minimize_some he (a := a.mirror t) (fn := fun x => fn (mirror t x))
      (by show Option.map _ a.fn = _; rw [hfn]; rfl)).trans ?_
    rw [Evo.validate_mirror, map_bind_ex]
    congr 1
    funext _
    show (if a.backend = some "mpi" ∧ env.mpi4py = false then _ else _) = _
    by_cases hmpi : a.backend = some "mpi" ∧ env.mpi4py = false
    · rw [if_pos hmpi, if_pos hmpi]; rfl
    · rw [if_neg hmpi, if_neg hmpi, map_bind_ex]
      show (a.unpackBounds >>= _) = _
      congr 1
      funext _
      rw [map_bind_ex]
      show (Evo.consMap a.constraints >>= _) = _
      rw [hc]
      have hg : a.seeded R g = g := by unfold CommonArgs.seeded; rw [hs]
      have hg' : (a.mirror t).seeded R g' = g' := by
        unfold CommonArgs.seeded
        rw [show (a.mirror t).seed = none from hs]
      show ((a.mirror t).firstMean R ((a.mirror t).seeded R g') >>= _) = Except.map _ (a.firstMean R (a.seeded R g) >>= _)
      rw [hg, hg']
      refine (congrArg (· >>= _) hm).trans ((bind_map_ex ..).trans (Eq.trans ?_ (map_bind_ex ..).symm))
      refine bind_congr_ok fun m _ => ?_
      by_cases hd : 0 < a.ndim ∧ 0 < a.p ∧ 0 < a.mu ∧ a.mu ≤ a.p
      · rw [dif_pos hd]
        refine (dif_pos hd).trans ?_
        have h1 := (Evo.reflected (a := a) (srt := srt) (fn := fn) t).run (c := a.cfg)
          (CMAES.odd (p := a.p) { R := R, srt := srt, eigh := eigh, mu := a.mu, hmu := hd.2.2.2 } hR) (T := T) (rng := CMAES.State.rng)
          (fun _ => rfl) fuel (CMAES.start m.1 junk a.sigma m.2)
        rw [← CMAES.start_reflect] at h1
        refine Eq.trans ?_ h1
        exact (CMAES.alike (Or.inl rfl)).run hf
      · rw [dif_neg hd]
        exact dif_neg hd

/-- C98 for `cmaes`: when the generator is put into a state in which it produces the opposite normal numbers (and, if the first mean
is drawn, `1 - u` for every uniform number `u`), the reflected problem gives the reflected run.  Whatever the arrays `xold` hold.
Missing: 'Penalize' (false, `C98_cmaes_violated`). -/
theorem C98_cmaes_partial {env : Env} (he : env.Ok) {R : Rng σ K} {T : σ → σ} {ρ : K → K} (hR : R.Mirrors T ρ) {srt : Argsort K}
    {eigh : CMAES.Eigh K} {fuel : Nat} {a : Evo.Args K} (hc : a.constraints = none) (hs : a.seed = none)
    (hρ : a.x0 = none → ∀ u, ρ u = 1 - u) (hf : 0 < fuel) (t : Nat → K) (junk junk' : Vec K a.ndim) (g : σ) :
    CMAES.minimize env R srt eigh fuel (a.mirror t) junk' (T g) =
      (CMAES.minimize env R srt eigh fuel a junk g).map fun o => o.mirror t T :=
  cmaes_mirror he hR hc hs hf t junk junk' (Evo.firstMean_mirror hR hρ t g)

/-- From two first means that are mirror images the two runs are. -/
theorem vdcma_mirror {env : Env} (he : env.Ok) {R : Rng σ K} {T : σ → σ} {ρ : K → K} (hR : R.Mirrors T ρ) {srt : Argsort K}
    {fuel : Nat} {a : Evo.Args K} (hc : a.constraints = none) (hs : a.seed = none)
    (hf : 0 < fuel) (t : Nat → K) (junk junk' : Vec K a.ndim) {g g' : σ}
    (hm : (a.mirror t).firstMean R g' = (a.firstMean R g).map fun m => (fun j => -m.1 j, T m.2)) :
    VDCMA.minimize env R srt fuel (a.mirror t) junk' g' =
      (VDCMA.minimize env R srt fuel a junk g).map fun o => o.mirror t T := by
  cases hfn : a.fn with
  | none =>
    rw [VDCMA.minimize_none hfn]
    exact VDCMA.minimize_none (a := a.mirror t) (by show Option.map _ a.fn = _; rw [hfn]; rfl)
  | some fn =>
    rw [VDCMA.minimize_some he hfn]
    refine (VDCMA.minimize_some he (a := a.mirror t) (fn := fun x => fn (mirror t x))
      (by show Option.map _ a.fn = _; rw [hfn]; rfl)).trans ?_
    rw [Evo.validate_mirror, map_bind_ex]
    congr 1
    funext _
    show (if a.backend = some "mpi" ∧ env.mpi4py = false then _ else _) = _
    by_cases hmpi : a.backend = some "mpi" ∧ env.mpi4py = false
    · rw [if_pos hmpi, if_pos hmpi]; rfl
    · rw [if_neg hmpi, if_neg hmpi, map_bind_ex]
      show (a.unpackBounds >>= _) = _
      congr 1
      funext _
      rw [map_bind_ex]
      show (Evo.consMap a.constraints >>= _) = _
      rw [hc]
      have hg : a.seeded R g = g := by unfold CommonArgs.seeded; rw [hs]
      have hg' : (a.mirror t).seeded R g' = g' := by
        unfold CommonArgs.seeded
        rw [show (a.mirror t).seed = none from hs]
      show ((a.mirror t).firstMean R ((a.mirror t).seeded R g') >>= _) = Except.map _ (a.firstMean R (a.seeded R g) >>= _)
      rw [hg, hg']
      refine (congrArg (· >>= _) hm).trans ((bind_map_ex ..).trans (Eq.trans ?_ (map_bind_ex ..).symm))
      refine bind_congr_ok fun m _ => ?_
      by_cases hd : 0 < a.ndim ∧ 0 < a.p ∧ 0 < a.mu ∧ a.mu ≤ a.p
      · rw [dif_pos hd]
        refine (dif_pos hd).trans ?_
        have h1 := (Evo.reflected (a := a) (srt := srt) (fn := fn) t).run (c := a.cfg)
          (VDCMA.odd (p := a.p) { R := R, mu := a.mu, hmu := hd.2.2.2 } hR) (T := T) (rng := VDCMA.State.rng)
          (fun _ => rfl) fuel (VDCMA.start R m.1 junk a.sigma m.2)
        rw [← VDCMA.start_reflect hR] at h1
        refine Eq.trans ?_ h1
        exact (VDCMA.alike (A := { R := R, mu := a.mu, hmu := hd.2.2.2 }) (Or.inl rfl)).run hf
      · rw [dif_neg hd]
        exact dif_neg hd

/-- C98 for `vdcma`.  Missing: 'Penalize'. -/
theorem C98_vdcma_partial {env : Env} (he : env.Ok) {R : Rng σ K} {T : σ → σ} {ρ : K → K} (hR : R.Mirrors T ρ) {srt : Argsort K}
    {fuel : Nat} {a : Evo.Args K} (hc : a.constraints = none) (hs : a.seed = none)
    (hρ : a.x0 = none → ∀ u, ρ u = 1 - u) (hf : 0 < fuel) (t : Nat → K) (junk junk' : Vec K a.ndim) (g : σ) :
    VDCMA.minimize env R srt fuel (a.mirror t) junk' (T g) =
      (VDCMA.minimize env R srt fuel a junk g).map fun o => o.mirror t T :=
  vdcma_mirror he hR hc hs hf t junk junk' (Evo.firstMean_mirror hR hρ t g)

end Stochopy.Props
