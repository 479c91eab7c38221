import Verif.Lemmas.Affine
import Verif.Lemmas.AffineEvo
import Verif.Lemmas.Except
import Verif.Props.Symmetry
import Verif.Props.EvoRuns

/-! # The origin and the units of the coordinates do not matter -/

set_option linter.unusedSectionVars false

namespace Stochopy.Props
open Stochopy
variable {K σ : Type} [Field K] [LinearOrder K] [IsStrictOrderedRing K] {p n : Nat}

/-- The coordinates are changed, the values are not. -/
theorem sameObj_affine {s t : Nat → K} (hs : ∀ j, 0 < s j) (fn : Vec K n → Val K) (ftol : Val K) :
    SameObj (fun v => v) (affine s t) (plainObj fn) (plainObj fun x => fn fun j => (x j - t j) / s j) ftol ftol where
  rising := rising_id
  pop X := by
    funext i
    show fn _ = fn _
    congr 1
    funext j
    unfold affine
    rw [add_sub_cancel_right, mul_div_cancel_left₀ _ (hs j).ne']
  one x := by
    show fn _ = fn _
    congr 1
    funext j
    unfold affine
    rw [add_sub_cancel_right, mul_div_cancel_left₀ _ (hs j).ne']
  ftol := rfl

theorem sameProblem_affine {s t : Nat → K} (hs : ∀ j, 0 < s j) (fn : Vec K n → Val K) (xtol xtol' : K) (ftol : Val K)
    (hd : ∀ a b : Vec K n, distLe (affine s t a) (affine s t b) xtol' = distLe a b xtol) :
    SameProblem (fun v => v) (affine s t) (plainObj fn) (plainObj fun x => fn fun j => (x j - t j) / s j) xtol xtol' ftol ftol :=
  { sameObj_affine hs fn ftol with dist := hd }

theorem bind_congr_ok {ε α β : Type} {x : Except ε α} {f g : α → Except ε β} (h : ∀ a, x = .ok a → f a = g a) :
    (x >>= f) = x >>= g := by
  cases x with
  | error e => rfl
  | ok a => exact h a rfl

variable [FloorRing K]

/-- C72 for `de`: with all coordinates counted in other units and from other origins, and `xtol` in the new units, `minimize`
evaluates the same points in the new coordinates, draws the same random numbers, stops at the same iteration for the same reason
and returns the same point in the new coordinates with the same value; and it raises the same exception. -/
theorem C72_de {env : Env} (he : env.Ok) {R : Rng σ K} {fuel : Nat} {a : DE.Args K} {g : σ} {c : K} (hc : 0 < c) (t : Nat → K) :
    DE.minimize env R fuel (a.affine c t) g =
      (DE.minimize env R fuel a g).map (Output.map id (affine (fun _ => c) t) (affine (fun _ => c) t)) := by
  have hv : DE.validate (a.affine c t) = DE.validate a := by
    rw [DE.validate_tail, DE.validate_tail]
    obtain ⟨⟨_, fn, x0, _, _, _, _, _, _, _, _, _, _⟩, _, _, _, _, _⟩ := a
    cases fn <;> cases x0 <;> rfl
  have hx : (a.affine c t).x0Pop = a.x0Pop.map fun x i => affine (fun _ => c) t (x i) := by
    obtain ⟨⟨_, _, x0, _, _, _, _, _, _, _, _, _, _⟩, _, _, _, _, _⟩ := a
    cases x0 <;> rfl
  cases hfn : a.fn with
  | none => rw [DE.minimize_none hfn, DE.minimize_none (by show Option.map _ a.fn = _; rw [hfn]; rfl)]; rfl
  | some fn =>
    rw [DE.minimize_some he hfn]
    refine (DE.minimize_some he (a := a.affine c t) (fn := fun x => fn fun j => (x j - t j) / c)
      (by show Option.map _ a.fn = _; rw [hfn]; rfl)).trans ?_
    rw [hv, map_bind_ex]
    refine bind_congr_ok fun (strat : DE.Strategy K a.p a.ndim) hval => ?_
    have hst : DE.strategyMap a.strategy = .ok strat := by
      rw [DE.validate_tail] at hval
      split_ifs at hval
      all_goals first
        | (cases hval)
        | (obtain ⟨st, h1, h2⟩ := bind_ok_iff.1 hval; cases h2 <;> exact h1)
    show (if a.sync = true ∧ a.backend = some "mpi" ∧ env.mpi4py = false then _ else _) = _
    split_ifs
    · rfl
    · rw [map_bind_ex]
      show (a.unpackBounds >>= _) = _
      congr 1
      funext _
      rw [map_bind_ex]
      congr 1
      funext cons
      have h : DE.Same (fun v => v) (affine (fun _ => c) t)
          { R := R, F := a.mutation, CR := a.recombination, strat := strat, cons := cons, lower := a.lower, upper := a.upper,
            maxiter := a.maxiter, xtol := a.xtol, ftol := a.ftol, obj := plainObj fn }
          { R := R, F := a.mutation, CR := a.recombination, strat := strat, cons := cons, lower := affine (fun _ => c) t a.lower,
            upper := affine (fun _ => c) t a.upper, maxiter := a.maxiter, xtol := c * a.xtol, ftol := a.ftol,
            obj := plainObj fun x => fn fun j => (x j - t j) / c } :=
        { prob := sameProblem_affine (s := fun _ => c) (fun _ => hc) fn a.xtol (c * a.xtol) a.ftol
            fun x y => distLe_affine hc t x y a.xtol
          maxiter := rfl
          R := rfl
          sync := candSync_affine (fun _ => hc) rfl rfl rfl rfl rfl rfl rfl (affine_strategyMap _ _ _ hst)
          async := by
            intro r1 _ i X gb g
            apply candAsync_affine (fun _ => hc) <;> first | rfl | exact affine_strategyMap _ _ _ hst }
      have h2 := h.run a.sync a.cfg fuel a.x0Pop (a.seeded R g) fun _ => lhs_affine R a.p (fun _ => c) t a.lower a.upper
      exact (congrArg (fun x => DE.de _ a.sync a.cfg fuel x (a.seeded R g)) hx).trans h2

variable [NumFns K]

/-- C72 for `cpso`.  Missing: when particles can be restarted (`competitivity` neither None nor 0) only the origins may change,
because the radius of the swarm, a length, is compared with a number that has no unit. -/
theorem C72_cpso_partial {env : Env} (he : env.Ok) {R : Rng σ K} {srt : Argsort K} {fuel : Nat} {a : CPSO.Args K} {g : σ}
    {c : K} (hc : 0 < c) (t : Nat → K) (hr : a.competitivity = none ∨ a.competitivity = some 0 ∨ c = 1) :
    CPSO.minimize env R srt fuel (a.affine c t) g =
      (CPSO.minimize env R srt fuel a g).map (Output.map id (affine (fun _ => c) t) (affine (fun _ => c) t)) := by
  have hv : CPSO.validate (a.affine c t) = CPSO.validate a := by
    obtain ⟨⟨_, fn, x0, _, _, _, _, _, _, _, _, _, _⟩, _, _, _, _, _, _⟩ := a
    cases fn <;> cases x0 <;> rfl
  have hx : (a.affine c t).x0Pop = a.x0Pop.map fun x i => affine (fun _ => c) t (x i) := by
    obtain ⟨⟨_, _, x0, _, _, _, _, _, _, _, _, _, _⟩, _, _, _, _, _, _⟩ := a
    cases x0 <;> rfl
  cases hfn : a.fn with
  | none => rw [CPSO.minimize_none hfn, CPSO.minimize_none (by show Option.map _ a.fn = _; rw [hfn]; rfl)]; rfl
  | some fn =>
    rw [CPSO.minimize_some he hfn]
    refine (CPSO.minimize_some he (a := a.affine c t) (fn := fun x => fn fun j => (x j - t j) / c)
      (by show Option.map _ a.fn = _; rw [hfn]; rfl)).trans ?_
    rw [hv, map_bind_ex]
    congr 1
    funext _
    show (if a.sync = true ∧ a.backend = some "mpi" ∧ env.mpi4py = false then _ else _) = _
    split_ifs
    · rfl
    · rw [map_bind_ex]
      show (a.unpackBounds >>= _) = _
      congr 1
      funext _
      rw [map_bind_ex]
      congr 1
      funext cons
      have h : CPSO.Same a.p (fun v => v) (affine (fun _ => c) t) (affine (fun _ => c) fun _ => 0)
          { R := R, argsort := srt, w := a.inertia, c1 := a.cognitivity, c2 := a.sociability, gamma := a.competitivity,
            cons := cons, lower := a.lower, upper := a.upper, maxiter := a.maxiter, xtol := a.xtol, ftol := a.ftol,
            obj := plainObj fn }
          { R := R, argsort := srt, w := a.inertia, c1 := a.cognitivity, c2 := a.sociability, gamma := a.competitivity,
            cons := cons, lower := affine (fun _ => c) t a.lower, upper := affine (fun _ => c) t a.upper, maxiter := a.maxiter,
            xtol := c * a.xtol, ftol := a.ftol, obj := plainObj fun x => fn fun j => (x j - t j) / c } :=
        { prob := sameProblem_affine (s := fun _ => c) (fun _ => hc) fn a.xtol (c * a.xtol) a.ftol
            fun x y => distLe_affine hc t x y a.xtol
          maxiter := rfl
          R := rfl
          zero := by funext j; unfold affine; simp
          mutation := mutation_affine (fun _ => hc) rfl rfl rfl rfl rfl rfl
          post := by
            intro it s
            refine post_affine ?_ ?_ ?_ ?_ ?_ ?_ ?_ it s
            · rfl
            · rfl
            · rfl
            · rfl
            · rfl
            · rfl
            · exact hr.imp id (Or.imp id fun h => funext fun _ => h) }
      have h2 := h.run a.sync a.cfg fuel a.x0Pop (a.seeded R g) fun _ => lhs_affine R a.p (fun _ => c) t a.lower a.upper
      exact (congrArg (fun x => CPSO.cpso _ a.sync a.cfg fuel x (a.seeded R g)) hx).trans h2

/-- C72 for `pso`. -/
theorem C72_pso {env : Env} (he : env.Ok) {R : Rng σ K} {srt : Argsort K} {fuel : Nat} {a : PSO.Args K} {g : σ}
    {c : K} (hc : 0 < c) (t : Nat → K) :
    PSO.minimize env R srt fuel (a.affine c t) g =
      (PSO.minimize env R srt fuel a g).map (Output.map id (affine (fun _ => c) t) (affine (fun _ => c) t)) :=
  C72_cpso_partial he (a := a.toCPSO) hc t (Or.inl rfl)

/-- C72 for `na`; every coordinate can have its own units.  Missing: variables fixed by equal bounds.  (The recorded initial
population is in the unit cube, whatever the coordinates.) -/
theorem C72_na_partial {env : Env} (he : env.Ok) {R : Rng σ K} {srt : Argsort K} {fuel : Nat} {a : NA.Args K} {g : σ}
    {s : Nat → K} (hs : ∀ j, 0 < s j) (t : Nat → K) (hb : ∀ j, a.lower j < a.upper j) :
    NA.minimize env R srt fuel (a.affine s t) g =
      (NA.minimize env R srt fuel a g).map (Output.map id id (affine s t)) := by
  have hv : NA.validate (a.affine s t) = NA.validate a := by
    obtain ⟨⟨_, fn, x0, _, _, _, _, _, _, _, _, _, _⟩, _⟩ := a
    cases fn <;> cases x0 <;> rfl
  have hx : (a.affine s t).x0Pop = a.x0Pop.map fun x i => affine s t (x i) := by
    obtain ⟨⟨_, _, x0, _, _, _, _, _, _, _, _, _, _⟩, _⟩ := a
    cases x0 <;> rfl
  cases hfn : a.fn with
  | none => rw [NA.minimize_none hfn, NA.minimize_none (by show Option.map _ a.fn = _; rw [hfn]; rfl)]; rfl
  | some fn =>
    rw [NA.minimize_some he hfn]
    refine (NA.minimize_some he (a := a.affine s t) (fn := fun x => fn fun j => (x j - t j) / s j)
      (by show Option.map _ a.fn = _; rw [hfn]; rfl)).trans ?_
    rw [hv, map_bind_ex]
    congr 1
    funext _
    show (if a.backend = some "mpi" ∧ env.mpi4py = false then _ else _) = _
    split_ifs
    · rfl
    · rw [map_bind_ex]
      show (a.unpackBounds >>= _) = _
      congr 1
      funext _
      have h : NA.Same a.p (fun v => v) (affine s t)
          { R := R, argsort := srt, nr := a.nr, lower := a.lower, upper := a.upper, maxiter := a.maxiter, xtol := a.xtol,
            ftol := a.ftol, obj := plainObj fn }
          { R := R, argsort := srt, nr := a.nr, lower := affine s t a.lower, upper := affine s t a.upper, maxiter := a.maxiter,
            xtol := a.xtol, ftol := a.ftol, obj := plainObj fun x => fn fun j => (x j - t j) / s j } :=
        { prob := sameObj_affine hs fn a.ftol
          xtol := rfl
          maxiter := rfl
          nr := rfl
          R := rfl
          srt := rfl
          comp := fun _ _ => rfl
          mask := spanMask_affine hs _ _
          unnorm := unnormalize_affine hs _ _
          norm := normalize_affine hs hb
          lhs := lhs_affine R a.p s t a.lower a.upper }
      have h2 := h.run a.cfg fuel a.x0Pop (a.seeded R g)
      exact (congrArg (fun x => NA.na _ a.cfg fuel x (a.seeded R g)) hx).trans h2

/-- C72 for `cmaes`; every coordinate can have its own units. -/
theorem C72_cmaes {env : Env} (he : env.Ok) {R : Rng σ K} {srt : Argsort K} {eigh : CMAES.Eigh K} {fuel : Nat} {a : Evo.Args K}
    {junk : Vec K a.ndim} {g : σ} {s : Nat → K} (hs : ∀ j, 0 < s j) (t : Nat → K) :
    CMAES.minimize env R srt eigh fuel (a.affine s t) junk g =
      (CMAES.minimize env R srt eigh fuel a junk g).map (Output.map id (affine s t) (affine s t)) := by
  cases hfn : a.fn with
  | none =>
    rw [CMAES.minimize_none hfn]
    exact CMAES.minimize_none (a := a.affine s t) (by show Option.map _ a.fn = _; rw [hfn]; rfl)
  | some fn =>
    rw [CMAES.minimize_some he hfn]
    refine (CMAES.minimize_some he (a := a.affine s t) (fn := fun x => fn fun j => (x j - t j) / s j)
      (by show Option.map _ a.fn = _; rw [hfn]; rfl)).trans ?_
    rw [Evo.validate_affine, map_bind_ex]
    congr 1
    funext _
    show (if a.backend = some "mpi" ∧ env.mpi4py = false then _ else _) = _
    by_cases hmpi : a.backend = some "mpi" ∧ env.mpi4py = false
    · rw [if_pos hmpi, if_pos hmpi]; rfl
    · rw [if_neg hmpi, if_neg hmpi, map_bind_ex]
      show (a.unpackBounds >>= _) = _
      congr 1
      funext _
      rw [map_bind_ex]
      congr 1
      funext pen
      rw [map_bind_ex, Evo.firstMean_affine hs]
      congr 1
      funext m
      by_cases hd : 0 < a.ndim ∧ 0 < a.p ∧ 0 < a.mu ∧ a.mu ≤ a.p
      · rw [dif_pos hd]
        refine (dif_pos hd).trans ?_
        exact (Evo.same_affine hs t pen).run _ _ _
      · rw [dif_neg hd]
        exact dif_neg hd

/-- C72 for `vdcma`; every coordinate can have its own units. -/
theorem C72_vdcma {env : Env} (he : env.Ok) {R : Rng σ K} {srt : Argsort K} {fuel : Nat} {a : Evo.Args K}
    {junk : Vec K a.ndim} {g : σ} {s : Nat → K} (hs : ∀ j, 0 < s j) (t : Nat → K) :
    VDCMA.minimize env R srt fuel (a.affine s t) junk g =
      (VDCMA.minimize env R srt fuel a junk g).map (Output.map id (affine s t) (affine s t)) := by
  cases hfn : a.fn with
  | none =>
    rw [VDCMA.minimize_none hfn]
    exact VDCMA.minimize_none (a := a.affine s t) (by show Option.map _ a.fn = _; rw [hfn]; rfl)
  | some fn =>
    rw [VDCMA.minimize_some he hfn]
    refine (VDCMA.minimize_some he (a := a.affine s t) (fn := fun x => fn fun j => (x j - t j) / s j)
      (by show Option.map _ a.fn = _; rw [hfn]; rfl)).trans ?_
    rw [Evo.validate_affine, map_bind_ex]
    congr 1
    funext _
    show (if a.backend = some "mpi" ∧ env.mpi4py = false then _ else _) = _
    by_cases hmpi : a.backend = some "mpi" ∧ env.mpi4py = false
    · rw [if_pos hmpi, if_pos hmpi]; rfl
    · rw [if_neg hmpi, if_neg hmpi, map_bind_ex]
      show (a.unpackBounds >>= _) = _
      congr 1
      funext _
      rw [map_bind_ex]
      congr 1
      funext pen
      rw [map_bind_ex, Evo.firstMean_affine hs]
      congr 1
      funext m
      by_cases hd : 0 < a.ndim ∧ 0 < a.p ∧ 0 < a.mu ∧ a.mu ≤ a.p
      · rw [dif_pos hd]
        refine (dif_pos hd).trans ?_
        exact (Evo.same_affine hs t pen).run _ _ _
      · rw [dif_neg hd]
        exact dif_neg hd

namespace Concrete
open Stochopy.Concrete

/-- Twice finer units, origins at -5 and -6. -/
def origin (j : Nat) : ℚ := 5 + j

theorem de_affine : ∃ o, DE.minimize env rng 10 deArgs 0 = .ok o ∧ improves o = true ∧
    DE.minimize env rng 10 (deArgs.affine 2 origin) 0 =
      .ok (o.map id (affine (fun _ => 2) origin) (affine (fun _ => 2) origin)) := by
  obtain ⟨o, h, hi⟩ := de_run
  exact ⟨o, h, hi, by rw [C72_de env_ok (by norm_num), h]; rfl⟩

theorem pso_affine : ∃ o, PSO.minimize env rng stableArgsort 10 psoArgs 0 = .ok o ∧ improves o = true ∧
    PSO.minimize env rng stableArgsort 10 (psoArgs.affine 2 origin) 0 =
      .ok (o.map id (affine (fun _ => 2) origin) (affine (fun _ => 2) origin)) := by
  obtain ⟨o, h, hi⟩ := pso_run
  exact ⟨o, h, hi, by rw [C72_pso env_ok (by norm_num), h]; rfl⟩

theorem cpso_affine : ∃ o, CPSO.minimize env rng stableArgsort 10 cpsoArgs 0 = .ok o ∧ improves o = true ∧
    CPSO.minimize env rng stableArgsort 10 (cpsoArgs.affine 1 origin) 0 =
      .ok (o.map id (affine (fun _ => 1) origin) (affine (fun _ => 1) origin)) := by
  obtain ⟨o, h, hi⟩ := cpso_run
  exact ⟨o, h, hi, by rw [C72_cpso_partial env_ok (by norm_num) _ (Or.inr (Or.inr rfl)), h]; rfl⟩

/-- Units `1 / (j + 1)`. -/
def units (j : Nat) : ℚ := j + 1

theorem na_affine : ∃ o, NA.minimize env rng stableArgsort 10 naArgs 0 = .ok o ∧ improves o = true ∧
    NA.minimize env rng stableArgsort 10 (naArgs.affine units origin) 0 = .ok (o.map id id (affine units origin)) := by
  obtain ⟨o, h, hi⟩ := na_run
  have hb : ∀ j, naArgs.lower j < naArgs.upper j := by decide +kernel
  have hu : ∀ j, 0 < units j := fun j => by unfold units; positivity
  have e := C72_na_partial env_ok (R := rng) (srt := stableArgsort) (fuel := 10) (a := naArgs) (g := 0) hu origin hb
  rw [h] at e
  exact ⟨o, h, hi, e⟩

theorem cmaes_affine : ∃ o, CMAES.minimize env rng stableArgsort eighDiag 10 evoArgs junk0 0 = .ok o ∧ improves o = true ∧
    CMAES.minimize env rng stableArgsort eighDiag 10 (evoArgs.affine units origin) junk0 0 =
      .ok (o.map id (affine units origin) (affine units origin)) := by
  obtain ⟨o, h, hi⟩ := cmaes_run
  have e := C72_cmaes env_ok (R := rng) (srt := stableArgsort) (eigh := eighDiag) (fuel := 10) (a := evoArgs) (junk := junk0)
    (g := 0) (fun j => by unfold units; positivity : ∀ j, 0 < units j) origin
  rw [h] at e
  exact ⟨o, h, hi, e⟩

theorem vdcma_affine : ∃ o, VDCMA.minimize env rng stableArgsort 10 evoArgs junk0 0 = .ok o ∧ improves o = true ∧
    VDCMA.minimize env rng stableArgsort 10 (evoArgs.affine units origin) junk0 0 =
      .ok (o.map id (affine units origin) (affine units origin)) := by
  obtain ⟨o, h, hi⟩ := vdcma_run
  have e := C72_vdcma env_ok (R := rng) (srt := stableArgsort) (fuel := 10) (a := evoArgs) (junk := junk0)
    (g := 0) (fun j => by unfold units; positivity : ∀ j, 0 < units j) origin
  rw [h] at e
  exact ⟨o, h, hi, e⟩

/-- The evaluated points of a run in new coordinates. -/
def pointsVia {p n : Nat} (ψ : Vec ℚ n → Vec ℚ n) (r : Except PyErr (Output Nat ℚ p n)) : List (List ℚ) :=
  match r with
  | .ok o => o.evals.map fun x => List.ofFn (ψ x)
  | .error _ => []

theorem points_map_via {p n : Nat} (ψ0 ψ : Vec ℚ n → Vec ℚ n) (r : Except PyErr (Output Nat ℚ p n)) :
    points (r.map (Output.map id ψ0 ψ)) = pointsVia ψ r := by
  cases r with
  | error e => rfl
  | ok o => show (o.evals.map ψ).map _ = o.evals.map _; rw [List.map_map]; rfl

/-- The box `[-1, 1] × {2}`. -/
def naFixedLast : NA.Args ℚ :=
  { naArgs with
    bounds := { shape := [2, 2], get := fun l => if l = [0, 0] then -1 else if l = [0, 1] then 1 else 2 }
    fn := some sphere2 }

end Concrete

open Stochopy.Concrete Concrete in
/-- C72 fails for `cpso` with restarts: in ten times finer units the swarm that was small in the box `[-1/10, 1/10]^2` is not small
any more, and no particle is restarted. -/
theorem C72_cpso_violated :
    ¬ ∀ (a : CPSO.Args ℚ) (c : ℚ) (t : Nat → ℚ), 0 < c →
      CPSO.minimize env rng stableArgsort 10 (a.affine c t) 0 =
        (CPSO.minimize env rng stableArgsort 10 a 0).map (Output.map id (affine (fun _ => c) t) (affine (fun _ => c) t)) := by
  intro h
  have h0 : points (CPSO.minimize env rng stableArgsort 10 (restartArgs.affine 10 fun _ => 0) 0) ≠
      pointsVia (affine (fun _ => 10) fun _ => 0) (CPSO.minimize env rng stableArgsort 10 restartArgs 0) := by decide +kernel
  rw [← points_map_via (affine (fun _ => 10) fun _ => 0)] at h0
  exact h0 (congrArg points (h restartArgs 10 (fun _ => 0) (by norm_num)))

open Stochopy.Concrete Concrete in
/-- C72 fails for `na` with a fixed variable: the initial models have its value, and not 0, in the unit cube, while the later ones
have 0, so that moving the origin of the fixed variable changes the distances between models and with them the points that are
evaluated. -/
theorem C72_na_violated :
    ¬ ∀ (a : NA.Args ℚ) (s t : Nat → ℚ), (∀ j, 0 < s j) →
      NA.minimize env rng stableArgsort 10 (a.affine s t) 0 =
        (NA.minimize env rng stableArgsort 10 a 0).map (Output.map id id (affine s t)) := by
  intro h
  have h1 := (congrArg points (h naFixedLast (fun _ => 1) (fun _ => -2) (by norm_num))).trans
    (points_map_via _ _ (NA.minimize env rng stableArgsort 10 naFixedLast 0))
  exact absurd h1 (by decide +kernel)

end Stochopy.Props
