import Verif.Lemmas.Fixed
import Verif.Lemmas.Box
import Verif.Model.FirstGen
import Verif.Props.Chains
import Verif.Props.EvoRuns

/-!
# C94: variables whose bounds coincide

`bounds[j] = (c, c)` is the way to fix the variable `j` at `c`.  The laws of arithmetic used (`CancelOps`) hold for exact numbers
and for floating point numbers.
-/

set_option linter.unusedSectionVars false

namespace Stochopy
open Spec Concrete

/-! ## Concrete runs: the box `[-1, 1] × {0}` -/

namespace Concrete

def segment : NdArr ℚ := { shape := [2, 2], get := fun l => if l = [0, 0] then -1 else if l = [0, 1] then 1 else 0 }

def deFixed : DE.Args ℚ := { deArgs with bounds := segment, fn := some sphere2 }
def cpsoFixed : CPSO.Args ℚ := { cpsoArgs with bounds := segment, fn := some sphere2 }
def cpsoFree : CPSO.Args ℚ := { cpsoFixed with constraints := none }
def psoFixed : PSO.Args ℚ := { psoArgs with bounds := segment, fn := some sphere2 }
def psoFree : PSO.Args ℚ := { psoFixed with constraints := none }
def naSegment : NA.Args ℚ := { naArgs with bounds := segment, fn := some sphere2 }
def evoFixed : Evo.Args ℚ := { evoArgs with bounds := segment, fn := some sphere2 }
def mcmcFixed : MCMC.Args ℚ := { mcmcArgs with bounds := segment, fn := some bowl }
def hmcFixed : HMC.Args ℚ := { hmcArgs with bounds := segment, fn := some bowl }

end Concrete

section
variable {K σ : Type} [AddZeroClass K] [One K] [Sub K] [Mul K] [Div K] [Neg K] [NatCast K] [IntCast K] [Pow K ℕ] [ArrayOps K] [LinearOrder K] [CancelOps K] [IntParts K]
variable {env : Env} {R : Rng σ K} {srt : Argsort K} {fuel : Nat} {g : σ}

/-! ## `de`: any strategy, with and without constraints -/

theorem C94_de (he : env.Ok) {a : DE.Args K} (hx0 : FixedStart a.toCommonArgs) {o : Output σ K a.p a.ndim}
    (h : DE.minimize env R fuel a g = .ok o) :
    EveryPoint (KeepsFixed (lo a.toCommonArgs) (hi a.toCommonArgs)) o ∧
      EveryRecorded (KeepsFixed (lo a.toCommonArgs) (hi a.toCommonArgs)) 0 o := by
  obtain ⟨fn', P, s0, r, L, hfn', hv, hobj, hcons, hPR, hF, hCR, hlo, hup, hm, hx, hft, hstr, hinit, hrun, rfl⟩ :=
    DE.minimize_ok he h
  have hname := (DE.validate_ok hv).2.2.2.2.2.2.2.2.1
  have hl : lo a.toCommonArgs = P.lower := hlo.symm
  have hu : hi a.toCommonArgs = P.upper := hup.symm
  obtain ⟨i, hi', rfl⟩ := DE.init_ok hinit
  have hX : ∀ i, KeepsFixed P.lower P.upper ((DE.initPop P a.x0Pop (a.seeded R g)).1 i) := by
    intro i
    unfold DE.initPop
    cases hx0' : a.x0Pop with
    | none => exact lhs_fixed _ _ _ _ i
    | some X => rw [hlo, hup]; exact fixedStart_pop hx0 hx0' i
  rw [hl, hu]
  obtain ⟨h1, _, h3⟩ := run_everyPoint (ev := DE.State.evals) (caller := DE.State.caller) (rng := DE.State.rng) hrun
    (DE.IF P.lower P.upper) ⟨fun x hx => by obtain ⟨j, rfl⟩ := List.mem_ofFn.1 hx; exact hX j, hX i, hX⟩
    (fun _ _ _ _ _ hI hs => DE.IF_step hobj hname hI hs) (fun _ _ _ h => h)
    (Q := KeepsFixed P.lower P.upper) (fun s hs => ⟨hs.1, hs.2.1, hs.2.2, hs.2.2⟩)
  exact ⟨h1, h3 hX (hX i)⟩

/-! ## `cpso` and `pso` -/

theorem cpso_fixed [NumFns K] (he : env.Ok) {a : CPSO.Args K} (hx0 : FixedStart a.toCommonArgs)
    {o : Output σ K a.p a.ndim} (h : CPSO.minimize env R srt fuel a g = .ok o) :
    EveryPoint (KeepsFixed (lo a.toCommonArgs) (hi a.toCommonArgs)) o ∧
      EveryRecorded (KeepsFixed (lo a.toCommonArgs) (hi a.toCommonArgs)) 0 o := by
  obtain ⟨fn', P, s0, r, L, hfn', hv, hobj, hcons, hPR, rfl, hw, hc1, hc2, hgam, hlo, hup, hm, hx, hft, hinit, hrun, rfl⟩ :=
    CPSO.minimize_ok he h
  have hl : lo a.toCommonArgs = P.lower := hlo.symm
  have hu : hi a.toCommonArgs = P.upper := hup.symm
  obtain ⟨i, hi', rfl⟩ := CPSO.init_ok hinit
  have hX : ∀ i, KeepsFixed P.lower P.upper ((CPSO.initPop P a.x0Pop (a.seeded R g)).1 i) := by
    intro i
    unfold CPSO.initPop
    cases hx0' : a.x0Pop with
    | none => exact lhs_fixed _ _ _ _ i
    | some X => rw [hlo, hup]; exact fixedStart_pop hx0 hx0' i
  rw [hl, hu]
  obtain ⟨h1, _, h3⟩ := run_everyPoint (ev := CPSO.State.evals) (caller := CPSO.State.caller) (rng := CPSO.State.rng) hrun
    (CPSO.IF P.lower P.upper)
    ⟨fun x hx => by obtain ⟨j, rfl⟩ := List.mem_ofFn.1 hx; exact hX j, hX i, hX, hX, fun i j _ => rfl⟩
    (fun _ _ _ _ _ hI hs => CPSO.IF_step hobj hI hs) (fun it _ _ h => CPSO.IF_post it h)
    (Q := KeepsFixed P.lower P.upper) (fun s hs => ⟨hs.1, hs.2.1, hs.2.2.1, hs.2.2.1⟩)
  exact ⟨h1, h3 hX (hX i)⟩

/-- Without constraints. -/
theorem C94_cpso [NumFns K] (he : env.Ok) {a : CPSO.Args K} (_hc : a.constraints = none) (hx0 : FixedStart a.toCommonArgs)
    {o : Output σ K a.p a.ndim} (h : CPSO.minimize env R srt fuel a g = .ok o) :
    EveryPoint (KeepsFixed (lo a.toCommonArgs) (hi a.toCommonArgs)) o ∧
      EveryRecorded (KeepsFixed (lo a.toCommonArgs) (hi a.toCommonArgs)) 0 o :=
  cpso_fixed he hx0 h

theorem C94_pso [NumFns K] (he : env.Ok) {a : PSO.Args K} (hc : a.constraints = none) (hx0 : FixedStart a.toCommonArgs)
    {o : Output σ K a.p a.ndim} (h : PSO.minimize env R srt fuel a g = .ok o) :
    EveryPoint (KeepsFixed (lo a.toCommonArgs) (hi a.toCommonArgs)) o ∧
      EveryRecorded (KeepsFixed (lo a.toCommonArgs) (hi a.toCommonArgs)) 0 o :=
  C94_cpso (a := a.toCPSO) he hc hx0 h

/-! ## `na`: whatever `x0` is, and also the first entry of the history -/

theorem C94_na (he : env.Ok) {a : NA.Args K} {o : Output σ K a.p a.ndim} (h : NA.minimize env R srt fuel a g = .ok o) :
    EveryPoint (KeepsFixed (lo a.toCommonArgs) (hi a.toCommonArgs)) o ∧
      EveryRecorded (KeepsFixed (lo a.toCommonArgs) (hi a.toCommonArgs)) 0 o := by
  obtain ⟨fn', P, s0, r, L, hfn', hv, hobj, hPR, hsrt, hnr, hlo, hup, hm, hx, hft, hinit, hrun, rfl⟩ :=
    NA.minimize_ok he h
  have hl : lo a.toCommonArgs = P.lower := hlo.symm
  have hu : hi a.toCommonArgs = P.upper := hup.symm
  obtain ⟨i, hi', rfl⟩ := NA.init_ok hinit
  rw [hl, hu]
  obtain ⟨h1, _, h3⟩ := run_everyPoint (ev := NA.State.evals) (caller := NA.State.caller) (rng := NA.State.rng) hrun
    (fun s => ∀ x ∈ s.evals, KeepsFixed P.lower P.upper x)
    (fun x hx => by obtain ⟨j, rfl⟩ := List.mem_ofFn.1 hx; exact NA.unnormalize_fixed _ _ _)
    (fun it s s' st _ hI hs => by
      obtain ⟨U, r, hU, hr, hst, rfl⟩ := NA.step_ok hs
      intro x hx
      rcases List.mem_append.1 hx with hx | hx
      · exact hI x hx
      · obtain ⟨i, rfl⟩ := List.mem_ofFn.1 hx
        exact NA.unnormalize_fixed _ _ _) (fun _ _ _ h => h)
    (Q := KeepsFixed P.lower P.upper)
    (fun s hs => ⟨hs, NA.unnormalize_fixed _ _ _, fun i => NA.unnormalize_fixed _ _ _, fun i => NA.unnormalize_fixed _ _ _⟩)
  exact ⟨h1, h3 (fun i => NA.normalize_fixed _ _ _) (NA.normalize_fixed _ _ _)⟩

/-! ## `cmaes` and `vdcma`

Full claim: as for the others, also when `x0` is given.  It is false (`C94_firstGen_violated`): `standardize(x0)` divides by the
half width of the interval, which is zero. -/

theorem C94_cmaes_partial [NumFns K] {eigh : CMAES.Eigh K} {a : Evo.Args K} {junk : Vec K a.ndim} {o : Output σ K a.p a.ndim}
    (he : env.Ok) (_hx0 : a.x0 = none) (h : CMAES.minimize env R srt eigh fuel a junk g = .ok o) :
    EveryPoint (KeepsFixed (lo a.toCommonArgs) (hi a.toCommonArgs)) o ∧
      EveryRecorded (KeepsFixed (lo a.toCommonArgs) (hi a.toCommonArgs)) 0 o := by
  obtain ⟨fn, obj, pen, m, hd, hfn, hv, hobj, hb, hc, hm, hrun⟩ := CMAES.minimize_ok he h
  exact Evo.run_fixed hrun

theorem C94_vdcma_partial [NumFns K] {a : Evo.Args K} {junk : Vec K a.ndim} {o : Output σ K a.p a.ndim}
    (he : env.Ok) (_hx0 : a.x0 = none) (h : VDCMA.minimize env R srt fuel a junk g = .ok o) :
    EveryPoint (KeepsFixed (lo a.toCommonArgs) (hi a.toCommonArgs)) o ∧
      EveryRecorded (KeepsFixed (lo a.toCommonArgs) (hi a.toCommonArgs)) 0 o := by
  obtain ⟨fn, obj, pen, m, hd, hfn, hv, hobj, hb, hc, hm, hrun⟩ := VDCMA.minimize_ok he h
  exact Evo.run_fixed hrun

theorem divBy_zero (a : K) : Val.divBy (.fin a) 0 = if 0 < a then .pinf else if a < 0 then .ninf else .nan := if_pos rfl

theorem inf_mul_zero {v : Val K} (hv : v = .nan ∨ v = .pinf ∨ v = .ninf) : v * Val.fin (0 : K) = .nan := by
  rcases hv with rfl | rfl | rfl
  · rfl
  · show (if (0 : K) < 0 then Val.pinf else if (0 : K) < 0 then Val.ninf else Val.nan) = _
    rw [if_neg (lt_irrefl _), if_neg (lt_irrefl _)]
  · show (if (0 : K) < 0 then Val.ninf else if (0 : K) < 0 then Val.pinf else Val.nan) = _
    rw [if_neg (lt_irrefl _), if_neg (lt_irrefl _)]

/-- With `x0` the fixed variable is NaN in every point of the first generation: without constraints for any `x0`, under `Penalize`
for an `x0` with the right value. -/
theorem C94_firstGen_violated {p n : Nat} {lower upper x : Vec K n} {penalized : Bool} {steps : Pop K p n} {j : Fin n}
    (hj : lower j = upper j) (hx : penalized = true → x j = lower j) (i : Fin p) :
    Evo.firstPoints lower upper penalized x steps i j = .nan := by
  have h0 : (1 / 2 * (upper j - lower j) : K) = 0 := by rw [hj, CancelOps.sub_self, CancelOps.mul_zero]
  have hu : ∀ y : Vec (Val K) n, (y j = .nan ∨ y j = .pinf ∨ y j = .ninf) → Evo.unstandardizeV lower upper y j = .nan := by
    intro y hy
    unfold Evo.unstandardizeV
    rw [h0, inf_mul_zero hy]
    rfl
  have hs : Evo.standardizeV lower upper x j = if 0 < x j - 1 / 2 * (upper j + lower j) then .pinf
      else if x j - 1 / 2 * (upper j + lower j) < 0 then .ninf else .nan := by
    unfold Evo.standardizeV
    rw [h0, divBy_zero]
  unfold Evo.firstPoints
  refine hu _ ?_
  cases penalized with
  | true =>
    rw [hx rfl, ← hj, CancelOps.half_double, CancelOps.sub_self, if_neg (lt_irrefl _), if_neg (lt_irrefl _)] at hs
    left
    have hc : ∀ v : Val K, v = .nan → (if .fin 1 < (if v < .fin (-1) then .fin (-1) else v) then .fin 1
        else (if v < .fin (-1) then .fin (-1) else v)) = Val.nan := by rintro _ rfl; rfl
    exact hc _ (by dsimp only; rw [hs]; rfl)
  | false =>
    rw [if_neg (by simp), hs]
    split_ifs
    · exact Or.inr (Or.inl rfl)
    · exact Or.inr (Or.inr rfl)
    · exact Or.inl rfl

end

/-! ## Exact numbers: `Shrink`, and the first generation in the model of whole runs -/

section
variable {K σ : Type} [Field K] [LinearOrder K] [IsStrictOrderedRing K] [FloorRing K]
variable {env : Env} {R : Rng σ K} {srt : Argsort K} {fuel : Nat} {g : σ}

theorem goodStart_fixed {a : CommonArgs K} (h : GoodStart a) : FixedStart a := by
  intro x hx i hi j hj
  have := h.start x hx i hi j
  dsimp only at this ⊢
  exact le_antisymm (hj ▸ this.2) this.1

/-- With `Shrink` from a start inside the bounds. -/
theorem C94_cpso_shrink [NumFns K] (he : env.Ok) {a : CPSO.Args K} (_hc : a.constraints = some "Shrink")
    (hb : GoodStart a.toCommonArgs) {o : Output σ K a.p a.ndim} (h : CPSO.minimize env R srt fuel a g = .ok o) :
    EveryPoint (KeepsFixed (lo a.toCommonArgs) (hi a.toCommonArgs)) o ∧
      EveryRecorded (KeepsFixed (lo a.toCommonArgs) (hi a.toCommonArgs)) 0 o :=
  cpso_fixed he (goodStart_fixed hb) h

theorem C94_pso_shrink [NumFns K] (he : env.Ok) {a : PSO.Args K} (hc : a.constraints = some "Shrink")
    (hb : GoodStart a.toCommonArgs) {o : Output σ K a.p a.ndim} (h : PSO.minimize env R srt fuel a g = .ok o) :
    EveryPoint (KeepsFixed (lo a.toCommonArgs) (hi a.toCommonArgs)) o ∧
      EveryRecorded (KeepsFixed (lo a.toCommonArgs) (hi a.toCommonArgs)) 0 o :=
  C94_cpso_shrink (a := a.toCPSO) he hc hb h

theorem clipV_fin {n : Nat} (x : Vec K n) : Evo.clipV (fun j => Val.fin (x j)) = fun j => Val.fin (Evo.clip x j) := by
  funext j
  unfold Evo.clipV Evo.clip
  have h1 : ∀ a b : K, (Val.fin a < Val.fin b) ↔ a < b := fun a b => Iff.rfl
  simp only [h1]
  by_cases ha : x j < -1
  · rw [if_pos ha, if_pos ha]
    simp only [h1]
    rw [if_neg (by linarith)]
  · rw [if_neg ha, if_neg ha]
    simp only [h1]
    split_ifs <;> rfl

theorem firstPoints_fin {p n : Nat} {lower upper x : Vec K n} (hb : ∀ j, lower j ≠ upper j) (penalized : Bool)
    (steps : Pop K p n) (i : Fin p) :
    Evo.firstPoints lower upper penalized x steps i = fun j => Val.fin
      (Evo.unstandardize lower upper (if penalized then Evo.clip fun j => Evo.standardize lower upper x j + steps i j
        else fun j => Evo.standardize lower upper x j + steps i j) j) := by
  have hs : ∀ j, Evo.standardizeV lower upper x j = .fin (Evo.standardize lower upper x j) := by
    intro j
    unfold Evo.standardizeV Evo.standardize
    refine if_neg fun h => ?_
    have : upper j - lower j = 0 := by linarith
    exact hb j (by linarith)
  unfold Evo.firstPoints
  have hy : (fun j => Evo.standardizeV lower upper x j + Val.fin (steps i j)) =
      fun j => Val.fin (Evo.standardize lower upper x j + steps i j) := by
    funext j; rw [hs j]; rfl
  dsimp only
  rw [hy]
  cases penalized with
  | true => rw [if_pos rfl, if_pos rfl, clipV_fin]; rfl
  | false => rfl

theorem consMap_isSome {c : Option String} {pen : Bool} (h : Evo.consMap c = .ok pen) : pen = c.isSome := by
  cases c with
  | none => cases h; rfl
  | some s =>
    unfold Evo.consMap at h
    dsimp only at h
    split_ifs at h
    cases h; rfl

/-- Where the model of whole runs applies, its first generation is the one above. -/
theorem C94_cmaes_firstGen [NumFns K] {eigh : CMAES.Eigh K} {a : Evo.Args K} {junk : Vec K a.ndim} {o : Output σ K a.p a.ndim}
    {x : NdArr K} (he : env.Ok) (hx : a.x0 = some x) (h : CMAES.minimize env R srt eigh fuel a junk g = .ok o) :
    (o.evals.take a.p).map (fun y j => Val.fin (y j)) =
      List.ofFn (Evo.firstPoints (lo a.toCommonArgs) (hi a.toCommonArgs) a.constraints.isSome (fun j => x.get [j.val])
        (CMAES.firstSteps R a.p a.ndim a.sigma (a.seeded R g))) := by
  obtain ⟨fn, obj, pen, m, hd, hfn, hv, hobj, hb, hc, hm, hrun⟩ := CMAES.minimize_ok he h
  obtain ⟨b, h1, h2⟩ := Evo.run_first hrun
  unfold Evo.Args.firstMean at hm
  rw [hx] at hm
  obtain ⟨u, hne, hm⟩ := bind_ok_iff.1 hm
  rw [Evo.need_ok] at hne
  cases hm
  cases h1
  have hpen : pen = a.constraints.isSome := by
    exact consMap_isSome hc
  rw [h2, List.map_ofFn]
  congr 1
  funext i
  rw [show lo a.toCommonArgs = a.lower from rfl, show hi a.toCommonArgs = a.upper from rfl]
  refine Eq.trans ?_ (firstPoints_fin hne _ _ i).symm
  subst hpen
  funext j
  simp only [Function.comp]
  congr 3

theorem C94_vdcma_firstGen [NumFns K] {a : Evo.Args K} {junk : Vec K a.ndim} {o : Output σ K a.p a.ndim}
    {x : NdArr K} (he : env.Ok) (hx : a.x0 = some x) (h : VDCMA.minimize env R srt fuel a junk g = .ok o) :
    (o.evals.take a.p).map (fun y j => Val.fin (y j)) =
      List.ofFn (Evo.firstPoints (lo a.toCommonArgs) (hi a.toCommonArgs) a.constraints.isSome (fun j => x.get [j.val])
        (VDCMA.firstSteps R a.p a.ndim a.sigma (a.seeded R g))) := by
  obtain ⟨fn, obj, pen, m, hd, hfn, hv, hobj, hb, hc, hm, hrun⟩ := VDCMA.minimize_ok he h
  obtain ⟨b, h1, h2⟩ := Evo.run_first hrun
  unfold Evo.Args.firstMean at hm
  rw [hx] at hm
  obtain ⟨u, hne, hm⟩ := bind_ok_iff.1 hm
  rw [Evo.need_ok] at hne
  cases hm
  simp only [VDCMA.gauss, VDCMA.sample] at h1
  obtain ⟨u, -, h1⟩ := bind_ok_iff.1 h1
  obtain ⟨r, hr, h1⟩ := bind_ok_iff.1 h1
  cases h1
  have hpen : pen = a.constraints.isSome := by
    exact consMap_isSome hc
  have hr1 : r.1 = fun i => VDCMA.spread (fun _ => 1) (fun j => (drawVec R.randn a.ndim (a.seeded R g)).1 j / NumFns.sqrt (a.ndim : K))
      ((drawMat R.randn a.p a.ndim (drawVec R.randn a.ndim (a.seeded R g)).2).1 i) := by
    unfold VDCMA.inject at hr
    simp only [VDCMA.start] at hr
    cases hr
    rfl
  rw [h2, List.map_ofFn]
  congr 1
  funext i
  rw [show lo a.toCommonArgs = a.lower from rfl, show hi a.toCommonArgs = a.upper from rfl]
  refine Eq.trans ?_ (firstPoints_fin hne _ _ i).symm
  subst hpen
  funext j
  simp only [Function.comp, hr1]
  congr 3

end

/-! ## The samplers -/

section
variable {K σ : Type} [AddZeroClass K] [One K] [Sub K] [Mul K] [Div K] [Neg K] [NatCast K] [IntCast K] [Pow K ℕ] [ArrayOps K] [LinearOrder K] [CancelOps K] [NumFns K]
variable {R : Rng σ K} {fuel : Nat} {g : σ}

theorem C94_mcmc [IntParts K] {a : MCMC.Args K} {o : Sampling.Output σ K a.ndim}
    (hx0 : ∀ x0, a.x0 = some x0 → x0.shape = [a.ndim] ∧ KeepsFixed a.lower a.upper fun j => x0.get [j.val])
    (h : (MCMC.sample R fuel a g).1 = .ok o) :
    EverySample (KeepsFixedV a.lower a.upper) o ∧ ∀ x ∈ o.evals, KeepsFixedV a.lower a.upper x :=
  MCMC.sample_fixed h fun x0 hx => by simp only [if_pos (hx0 x0 hx).1]; exact (hx0 x0 hx).2

/-! Full claim for `hmc`: all samples and all points at which the objective is evaluated.  Both fail: the finite differences move the
fixed variable (`C94_hmc_evals_violated`), and if the objective is infinite there, the gradient is NaN and so is the fixed variable
of the next sample (`C94_hmc_violated`). -/

/-- The samples, for an objective with finite values. -/
theorem C94_hmc_partial {a : HMC.Args K} {o : Sampling.Output σ K a.ndim} (hh : a.fdStep ≠ 0)
    (hfin : ∀ fn, a.fn = some fn → ∀ x, Spec.Finite x → ∃ k, fn x = .fin k)
    (hx0 : ∀ x0, a.x0 = some x0 → x0.shape = [a.ndim] ∧ KeepsFixed a.lower a.upper fun j => x0.get [j.val])
    (h : (HMC.sample R a g).1 = .ok o) :
    EverySample (fun x => Spec.Finite x ∧ KeepsFixedV a.lower a.upper x) o :=
  HMC.sample_fixed h hh hfin fun x0 hx => by simp only [if_pos (hx0 x0 hx).1]; exact (hx0 x0 hx).2

end

/-- The objective is infinite off the segment. -/
def wall (x : Vec (Val ℚ) 2) : Val ℚ := if x 1 = .fin 0 then x 0 * x 0 else .pinf

def hmcWall : HMC.Args ℚ := { hmcFixed with fn := some wall }

/-- A sample after the first has NaN in the fixed variable. -/
def nanSample (o : Sampling.Output Nat ℚ 2) : Bool :=
  match o.xall with
  | some xs => xs.any fun x => decide (x 1 = .nan)
  | none => false

theorem C94_hmc_violated :
    ∃ o, (HMC.sample rng hmcWall 0).1 = .ok o ∧ ¬ EverySample (KeepsFixedV hmcWall.lower hmcWall.upper) o := by
  obtain ⟨o, h, ht⟩ := returns_iff (r := (HMC.sample rng hmcWall 0).1) (t := nanSample) (by decide +kernel)
  refine ⟨o, h, fun hE => ?_⟩
  unfold nanSample at ht
  split at ht
  · rename_i xs hxs
    obtain ⟨x, hx, hx1⟩ := List.any_eq_true.1 ht
    have := hE.recorded xs hxs x hx (1 : Fin 2) (by decide +kernel)
    rw [of_decide_eq_true hx1] at this
    cases this
  · cases ht

theorem C94_hmc_evals_violated :
    ∃ o, (HMC.sample rng hmcFixed 0).1 = .ok o ∧ ¬ ∀ x ∈ o.evals, KeepsFixedV hmcFixed.lower hmcFixed.upper x := by
  obtain ⟨o, h, ht⟩ := returns_iff (r := (HMC.sample rng hmcFixed 0).1)
    (t := fun o => o.evals.any fun x => decide (x (1 : Fin 2) = .fin (1 / 100))) (by decide +kernel)
  refine ⟨o, h, fun hE => ?_⟩
  obtain ⟨x, hx, hx1⟩ := List.any_eq_true.1 ht
  have := hE x hx (1 : Fin 2) (by decide +kernel)
  rw [of_decide_eq_true hx1] at this
  exact absurd this (by decide +kernel)

/-! ## The hypotheses are met -/

theorem segment_goodStart : GoodStart { common with bounds := segment, fn := some sphere2 } := by
  refine ⟨?_, ?_⟩
  · intro j
    fin_cases j <;> decide +kernel
  · intro x hx; simp [common] at hx

theorem segment_fixed : lo { common with bounds := segment, fn := some sphere2 } (1 : Fin 2) =
    hi { common with bounds := segment, fn := some sphere2 } (1 : Fin 2) := by decide +kernel

example : (∃ o, DE.minimize Concrete.env rng 10 deFixed 0 = .ok o ∧ improves o = true ∧ ∀ x ∈ o.evals, x (1 : Fin 2) = 0) ∧
    (∃ o, CPSO.minimize Concrete.env rng stableArgsort 10 cpsoFree 0 = .ok o ∧ improves o = true ∧
      ∀ x ∈ o.evals, x (1 : Fin 2) = 0) ∧
    (∃ o, CPSO.minimize Concrete.env rng stableArgsort 10 cpsoFixed 0 = .ok o ∧ improves o = true ∧
      ∀ x ∈ o.evals, x (1 : Fin 2) = 0) ∧
    (∃ o, PSO.minimize Concrete.env rng stableArgsort 10 psoFree 0 = .ok o ∧ improves o = true ∧
      ∀ x ∈ o.evals, x (1 : Fin 2) = 0) ∧
    (∃ o, NA.minimize Concrete.env rng stableArgsort 10 naSegment 0 = .ok o ∧ improves o = true ∧
      ∀ x ∈ o.evals, x (1 : Fin 2) = 0) := by
  obtain ⟨o1, h1, t1⟩ := returns_iff (r := DE.minimize Concrete.env rng 10 deFixed 0) (t := improves) (by decide +kernel)
  obtain ⟨o2, h2, t2⟩ := returns_iff (r := CPSO.minimize Concrete.env rng stableArgsort 10 cpsoFree 0) (t := improves)
    (by decide +kernel)
  obtain ⟨o3, h3, t3⟩ := returns_iff (r := CPSO.minimize Concrete.env rng stableArgsort 10 cpsoFixed 0) (t := improves)
    (by decide +kernel)
  obtain ⟨o4, h4, t4⟩ := returns_iff (r := PSO.minimize Concrete.env rng stableArgsort 10 psoFree 0) (t := improves)
    (by decide +kernel)
  obtain ⟨o5, h5, t5⟩ := returns_iff (r := NA.minimize Concrete.env rng stableArgsort 10 naSegment 0) (t := improves)
    (by decide +kernel)
  have hs := goodStart_fixed segment_goodStart
  exact ⟨⟨o1, h1, t1, fun x hx => (C94_de env_ok hs h1).1.evals x hx (1 : Fin 2) segment_fixed⟩,
    ⟨o2, h2, t2, fun x hx => (C94_cpso env_ok rfl hs h2).1.evals x hx (1 : Fin 2) segment_fixed⟩,
    ⟨o3, h3, t3, fun x hx => (C94_cpso_shrink env_ok rfl segment_goodStart h3).1.evals x hx (1 : Fin 2) segment_fixed⟩,
    ⟨o4, h4, t4, fun x hx => (C94_pso env_ok rfl hs h4).1.evals x hx (1 : Fin 2) segment_fixed⟩,
    ⟨o5, h5, t5, fun x hx => (C94_na env_ok h5).1.evals x hx (1 : Fin 2) segment_fixed⟩⟩

example : (∃ o, CMAES.minimize Concrete.env rng stableArgsort eighDiag 10 evoFixed junk0 0 = .ok o ∧ improves o = true ∧
      ∀ x ∈ o.evals, x (1 : Fin 2) = 0) ∧
    ∃ o, VDCMA.minimize Concrete.env rng stableArgsort 10 evoFixed junk0 0 = .ok o ∧ improves o = true ∧
      ∀ x ∈ o.evals, x (1 : Fin 2) = 0 := by
  obtain ⟨o1, h1, t1⟩ := returns_iff (r := CMAES.minimize Concrete.env rng stableArgsort eighDiag 10 evoFixed junk0 0)
    (t := improves) (by decide +kernel)
  obtain ⟨o2, h2, t2⟩ := returns_iff (r := VDCMA.minimize Concrete.env rng stableArgsort 10 evoFixed junk0 0)
    (t := improves) (by decide +kernel)
  exact ⟨⟨o1, h1, t1, fun x hx => (C94_cmaes_partial env_ok rfl h1).1.evals x hx (1 : Fin 2) segment_fixed⟩,
    ⟨o2, h2, t2, fun x hx => (C94_vdcma_partial env_ok rfl h2).1.evals x hx (1 : Fin 2) segment_fixed⟩⟩

/-- Chains with accepted and rejected samples. -/
example : (∃ o, (MCMC.sample rng 10 mcmcFixed 0).1 = .ok o ∧ mixed o = true ∧
      EverySample (KeepsFixedV mcmcFixed.lower mcmcFixed.upper) o) ∧
    ∃ o, (HMC.sample rng hmcFixed 0).1 = .ok o ∧ 0 < o.acceptRatio ∧
      EverySample (fun x => Spec.Finite x ∧ KeepsFixedV hmcFixed.lower hmcFixed.upper x) o := by
  obtain ⟨o1, h1, t1⟩ := returns_iff (r := (MCMC.sample rng 10 mcmcFixed 0).1) (t := mixed) (by decide +kernel)
  obtain ⟨o2, h2, t2⟩ := returns_iff (r := (HMC.sample rng hmcFixed 0).1) (t := fun o => decide (0 < o.acceptRatio))
    (by decide +kernel)
  have hst : ∀ x0, samplerArgs.x0 = some x0 → x0.shape = [2] ∧
      KeepsFixed (Sampling.Args.lower { samplerArgs with bounds := segment, fn := some bowl })
        (Sampling.Args.upper { samplerArgs with bounds := segment, fn := some bowl }) fun j => x0.get [j.val] := by
    intro x0 hx
    cases hx
    refine ⟨rfl, fun j hj => ?_⟩
    fin_cases j
    · exact absurd hj (by decide +kernel)
    · decide +kernel
  refine ⟨⟨o1, h1, t1, (C94_mcmc hst h1).1⟩, ⟨o2, h2, of_decide_eq_true t2, C94_hmc_partial (by decide +kernel) ?_ hst h2⟩⟩
  intro fn hfn x hx
  cases hfn
  obtain ⟨a, ha⟩ := hx (0 : Fin 2)
  obtain ⟨b, hb⟩ := hx (1 : Fin 2)
  exact ⟨a * a + b * b, by unfold bowl; rw [ha, hb]; rfl⟩

end Stochopy
