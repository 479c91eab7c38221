import Verif.Lemmas.SymmetryArgs
import Verif.Lemmas.Argsort
import Verif.Props.Concrete

/-! # Only the order of the objective values matters -/

set_option linter.unusedSectionVars false

namespace Stochopy.Props
open Stochopy
variable {K σ : Type} [AddZeroClass K] [One K] [Sub K] [Mul K] [Div K] [Neg K] [NatCast K] [IntCast K] [Pow K ℕ] [ArrayOps K] [LinearOrder K] {p n : Nat}

/-- The objective values and the threshold are changed, the points are not. -/
theorem sameProblem_revalue {φ : Val K → Val K} (hφ : Rising φ) (fn : Vec K n → Val K) (xtol : K) (ftol : Val K) :
    SameProblem φ (fun x => x) (plainObj fn) (plainObj fun x => φ (fn x)) xtol xtol ftol (φ ftol) where
  rising := hφ
  pop _ := rfl
  one _ := rfl
  dist _ _ := rfl
  ftol := rfl

theorem xmap_id (x : Option (Pop K p n)) : Option.map (fun (x : Pop K p n) i => x i) x = x := by cases x <;> rfl

theorem map_self {ε α β : Type} {x : Except ε (α × β)} {y : Except ε (α × β)} (h : x = y) : x = y.map fun r => (r.1, r.2) := by
  subst h; cases x <;> rfl

section opt
variable [IntParts K]

/-- C71 for `de`: with the objective values and `ftol` changed by a strictly increasing `φ`, `minimize` evaluates the same points,
consumes the same random numbers, stops at the same iteration for the same reason and returns the same point, with the values
changed by `φ`; and it raises the same exception. -/
theorem C71_de {env : Env} (he : env.Ok) {R : Rng σ K} {fuel : Nat} {a : DE.Args K} {g : σ} {φ : Val K → Val K} (hφ : Rising φ) :
    DE.minimize env R fuel (a.revalue φ) g =
      (DE.minimize env R fuel a g).map (Output.map φ id id) := by
  have hv : DE.validate (a.revalue φ) = DE.validate a := by
    rw [DE.validate_tail, DE.validate_tail]
    obtain ⟨⟨_, fn, _, _, _, _, _, _, _, _, _, _, _⟩, _, _, _, _, _⟩ := a
    cases fn <;> rfl
  cases hfn : a.fn with
  | none => rw [DE.minimize_none hfn, DE.minimize_none (by show Option.map _ a.fn = _; rw [hfn]; rfl)]; rfl
  | some fn =>
    rw [DE.minimize_some he hfn]
    refine (DE.minimize_some he (a := a.revalue φ) (fn := fun x => φ (fn x)) (by show Option.map _ a.fn = _; rw [hfn]; rfl)).trans ?_
    rw [hv, map_bind_ex]
    congr 1
    funext strat
    show (if a.sync = true ∧ a.backend = some "mpi" ∧ env.mpi4py = false then _ else _) = _
    split_ifs
    · rfl
    · rw [map_bind_ex]
      show (a.unpackBounds >>= _) = _
      congr 1
      funext _
      rw [map_bind_ex]
      congr 1
      funext cons
      have h : DE.Same φ (fun x => x)
          { R := R, F := a.mutation, CR := a.recombination, strat := strat, cons := cons, lower := a.lower, upper := a.upper,
            maxiter := a.maxiter, xtol := a.xtol, ftol := a.ftol, obj := plainObj fn }
          { R := R, F := a.mutation, CR := a.recombination, strat := strat, cons := cons, lower := a.lower, upper := a.upper,
            maxiter := a.maxiter, xtol := a.xtol, ftol := φ a.ftol, obj := plainObj fun x => φ (fn x) } :=
        { prob := sameProblem_revalue hφ fn a.xtol a.ftol
          maxiter := rfl
          R := rfl
          sync := fun X gb g => map_self rfl
          async := fun r1 _ i X gb g => map_self rfl }
      have h2 := h.run a.sync a.cfg fuel a.x0Pop (a.seeded R g) fun _ _ => rfl
      exact (congrArg (fun x => DE.de _ a.sync a.cfg fuel x (a.seeded R g)) (xmap_id a.x0Pop)).symm.trans h2

variable [NumFns K]

theorem resetWorst_revalue {φ : Val K → Val K} {P P' : CPSO.Par σ K n} (hR : P'.R = P.R) (hs : P'.argsort = P.argsort)
    (hc : Comparing P.argsort φ) (h30 : φ CPSO.resetFit = CPSO.resetFit) (hl : P'.lower = P.lower) (hu : P'.upper = P.upper)
    (nw : Nat) (s : CPSO.State σ K p n) :
    CPSO.resetWorst P' nw (s.map φ (fun x => x) fun x => x) = (CPSO.resetWorst P nw s).map φ (fun x => x) fun x => x := by
  have hpos : CPSO.restartPos P'.argsort (fun i => φ (s.pbestfit i)) nw = CPSO.restartPos P.argsort s.pbestfit nw := by
    funext q
    unfold CPSO.restartPos
    rw [hs, hc]
  unfold CPSO.resetWorst
  dsimp only [CPSO.State.map]
  rw [hpos, hR, hl, hu]
  congr 1
  · funext q
    cases CPSO.restartPos P.argsort s.pbestfit nw q with
    | none => rfl
    | some t => exact h30.symm
  · unfold CPSO.writeThrough
    cases s.aliased <;> cases s.caller <;> rfl

theorem post_revalue {φ : Val K → Val K} {P P' : CPSO.Par σ K n} (hR : P'.R = P.R) (hs : P'.argsort = P.argsort)
    (hl : P'.lower = P.lower) (hu : P'.upper = P.upper) (hg : P'.gamma = P.gamma) (hm : P'.maxiter = P.maxiter)
    (hc : P.gamma = none ∨ P.gamma = some 0 ∨ (Comparing P.argsort φ ∧ φ CPSO.resetFit = CPSO.resetFit))
    (it : Nat) (s : CPSO.State σ K p n) :
    CPSO.post P' it (s.map φ (fun x => x) fun x => x) = (CPSO.post P it s).map φ (fun x => x) fun x => x := by
  unfold CPSO.post
  rw [hg]
  rcases hc with h | h | ⟨h1, h2⟩
  · rw [h]
  · rw [h]; simp
  · cases P.gamma with
    | none => rfl
    | some gm =>
      dsimp only
      split_ifs
      · rfl
      · unfold CPSO.restart
        rw [hm]
        show (if CPSO.swarmSmall s.X s.gbest _ = true then _ else _) = _
        split_ifs
        · exact resetWorst_revalue hR hs h1 h2 hl hu _ _
        · rfl
        · rfl

/-- C71 for `cpso`.  Missing: when particles can be restarted (`competitivity` neither None nor 0), the value 1e30 written into
the personal best of a restarted particle has to be a fixed point of `φ`. -/
theorem C71_cpso_partial {env : Env} (he : env.Ok) {R : Rng σ K} {srt : Argsort K} {fuel : Nat} {a : CPSO.Args K} {g : σ}
    {φ : Val K → Val K} (hφ : Rising φ)
    (hc : a.competitivity = none ∨ a.competitivity = some 0 ∨ (Comparing srt φ ∧ φ (.fin (10 ^ 30)) = .fin (10 ^ 30))) :
    CPSO.minimize env R srt fuel (a.revalue φ) g = (CPSO.minimize env R srt fuel a g).map (Output.map φ id id) := by
  have hv : CPSO.validate (a.revalue φ) = CPSO.validate a := by
    obtain ⟨⟨_, fn, _, _, _, _, _, _, _, _, _, _, _⟩, _, _, _, _, _, _⟩ := a
    cases fn <;> rfl
  cases hfn : a.fn with
  | none => rw [CPSO.minimize_none hfn, CPSO.minimize_none (by show Option.map _ a.fn = _; rw [hfn]; rfl)]; rfl
  | some fn =>
    rw [CPSO.minimize_some he hfn]
    refine (CPSO.minimize_some he (a := a.revalue φ) (fn := fun x => φ (fn x)) (by show Option.map _ a.fn = _; rw [hfn]; rfl)).trans ?_
    rw [hv, map_bind_ex]
    congr 1
    funext _
    show (if a.sync = true ∧ a.backend = some "mpi" ∧ env.mpi4py = false then _ else _) = _
    split_ifs
    · rfl
    · rw [map_bind_ex]
      show (a.unpackBounds >>= _) = _
      congr 1
      funext _
      rw [map_bind_ex]
      congr 1
      funext cons
      have h : CPSO.Same a.p φ (fun x => x) (fun x => x)
          { R := R, argsort := srt, w := a.inertia, c1 := a.cognitivity, c2 := a.sociability, gamma := a.competitivity,
            cons := cons, lower := a.lower, upper := a.upper, maxiter := a.maxiter, xtol := a.xtol, ftol := a.ftol,
            obj := plainObj fn }
          { R := R, argsort := srt, w := a.inertia, c1 := a.cognitivity, c2 := a.sociability, gamma := a.competitivity,
            cons := cons, lower := a.lower, upper := a.upper, maxiter := a.maxiter, xtol := a.xtol, ftol := φ a.ftol,
            obj := plainObj fun x => φ (fn x) } :=
        { prob := sameProblem_revalue hφ fn a.xtol a.ftol
          maxiter := rfl
          R := rfl
          zero := rfl
          mutation := fun _ _ _ _ _ _ => rfl
          post := fun it s => post_revalue rfl rfl rfl rfl rfl rfl hc it s }
      have h2 := h.run a.sync a.cfg fuel a.x0Pop (a.seeded R g) fun _ _ => rfl
      exact (congrArg (fun x => CPSO.cpso _ a.sync a.cfg fuel x (a.seeded R g)) (xmap_id a.x0Pop)).symm.trans h2

/-- C71 for `pso`. -/
theorem C71_pso {env : Env} (he : env.Ok) {R : Rng σ K} {srt : Argsort K} {fuel : Nat} {a : PSO.Args K} {g : σ}
    {φ : Val K → Val K} (hφ : Rising φ) :
    PSO.minimize env R srt fuel (a.revalue φ) g = (PSO.minimize env R srt fuel a g).map (Output.map φ id id) :=
  C71_cpso_partial he (a := a.toCPSO) hφ (Or.inl rfl)

/-- C71 for `na`. -/
theorem C71_na {env : Env} (he : env.Ok) {R : Rng σ K} {srt : Argsort K} {fuel : Nat} {a : NA.Args K} {g : σ}
    {φ : Val K → Val K} (hφ : Rising φ) (hc : Comparing srt φ) :
    NA.minimize env R srt fuel (a.revalue φ) g = (NA.minimize env R srt fuel a g).map (Output.map φ id id) := by
  have hv : NA.validate (a.revalue φ) = NA.validate a := by
    obtain ⟨⟨_, fn, _, _, _, _, _, _, _, _, _, _, _⟩, _⟩ := a
    cases fn <;> rfl
  cases hfn : a.fn with
  | none => rw [NA.minimize_none hfn, NA.minimize_none (by show Option.map _ a.fn = _; rw [hfn]; rfl)]; rfl
  | some fn =>
    rw [NA.minimize_some he hfn]
    refine (NA.minimize_some he (a := a.revalue φ) (fn := fun x => φ (fn x)) (by show Option.map _ a.fn = _; rw [hfn]; rfl)).trans ?_
    rw [hv, map_bind_ex]
    congr 1
    funext _
    show (if a.backend = some "mpi" ∧ env.mpi4py = false then _ else _) = _
    split_ifs
    · rfl
    · rw [map_bind_ex]
      show (a.unpackBounds >>= _) = _
      congr 1
      funext _
      have h : NA.Same a.p φ (fun x => x)
          { R := R, argsort := srt, nr := a.nr, lower := a.lower, upper := a.upper, maxiter := a.maxiter, xtol := a.xtol,
            ftol := a.ftol, obj := plainObj fn }
          { R := R, argsort := srt, nr := a.nr, lower := a.lower, upper := a.upper, maxiter := a.maxiter, xtol := a.xtol,
            ftol := φ a.ftol, obj := plainObj fun x => φ (fn x) } :=
        { prob := (sameProblem_revalue hφ fn a.xtol a.ftol).toSameObj
          xtol := rfl
          maxiter := rfl
          nr := rfl
          R := rfl
          srt := rfl
          comp := hc
          mask := rfl
          unnorm := fun _ => rfl
          norm := fun _ => rfl
          lhs := fun _ => rfl }
      have h2 := h.run a.cfg fuel a.x0Pop (a.seeded R g)
      exact (congrArg (fun x => NA.na _ a.cfg fuel x (a.seeded R g)) (xmap_id a.x0Pop)).symm.trans h2

end opt

/-- The stable argsort decides by comparisons. -/
theorem comparing_stable {φ : Val K → Val K} (hφ : Rising φ) : Comparing stableArgsort φ := by
  intro m v
  have hs : ∀ a b, sortLe (φ a) (φ b) ↔ sortLe a b := by
    intro a b
    unfold sortLe
    rw [hφ a b]
    have h1 : φ b = .nan ↔ b = .nan := by
      rw [← Val.isNan_iff, ← Val.isNan_iff, hφ.isNan]
    rw [h1]
  have hb : before (fun i => φ (v i)) = before v := by
    funext i j
    unfold before
    rw [hs, hs]
  have hr : rankOf (fun i => φ (v i)) = rankOf v := by
    funext i
    unfold rankOf
    congr 1
    funext j
    simp only [hb]
  refine Equiv.ext fun k => (rank_bijective v).1 ?_
  show rank v (atRank (fun i => φ (v i)) k) = rank v (atRank v k)
  rw [rank_atRank v]
  refine Eq.trans ?_ (rank_atRank (fun i => φ (v i)) k)
  exact Fin.ext (congrFun hr _).symm

namespace Concrete
open Stochopy.Concrete

/-- A strictly increasing change of values: `v ↦ v³ - 5`. -/
def cube : Val ℚ → Val ℚ
  | .nan => .nan
  | .ninf => .ninf
  | .fin k => .fin (k ^ 3 - 5)
  | .pinf => .pinf

theorem cube_rising : Rising cube := by
  intro a b
  cases a <;> cases b <;> simp [cube]
  exact Odd.pow_le_pow (by decide)

/-- The runs of the concrete setting with `v³ - 5` in place of `v`: they return, with the mapped values. -/
theorem de_cube : ∃ o, DE.minimize env rng 10 deArgs 0 = .ok o ∧ improves o = true ∧
    DE.minimize env rng 10 (deArgs.revalue cube) 0 = .ok (o.map cube id id) := by
  obtain ⟨o, h, hi⟩ := de_run
  exact ⟨o, h, hi, by rw [C71_de env_ok cube_rising, h]; rfl⟩

theorem pso_cube : ∃ o, PSO.minimize env rng stableArgsort 10 psoArgs 0 = .ok o ∧ improves o = true ∧
    PSO.minimize env rng stableArgsort 10 (psoArgs.revalue cube) 0 = .ok (o.map cube id id) := by
  obtain ⟨o, h, hi⟩ := pso_run
  exact ⟨o, h, hi, by rw [C71_pso env_ok cube_rising, h]; rfl⟩

theorem na_cube : ∃ o, NA.minimize env rng stableArgsort 10 naArgs 0 = .ok o ∧ improves o = true ∧
    NA.minimize env rng stableArgsort 10 (naArgs.revalue cube) 0 = .ok (o.map cube id id) := by
  obtain ⟨o, h, hi⟩ := na_run
  exact ⟨o, h, hi, by rw [C71_na env_ok cube_rising (comparing_stable cube_rising), h]; rfl⟩

/-- A strictly increasing change of values that keeps 1e30: the values below 1e30 are halved towards it. -/
def halve : Val ℚ → Val ℚ
  | .nan => .nan
  | .ninf => .ninf
  | .fin k => .fin ((k + 10 ^ 30) / 2)
  | .pinf => .pinf

theorem halve_rising : Rising halve := by
  intro a b
  cases a <;> cases b <;> simp [halve]
  constructor <;> intro h <;> linarith

theorem cpso_halve : ∃ o, CPSO.minimize env rng stableArgsort 10 cpsoArgs 0 = .ok o ∧ improves o = true ∧
    CPSO.minimize env rng stableArgsort 10 (cpsoArgs.revalue halve) 0 = .ok (o.map halve id id) := by
  obtain ⟨o, h, hi⟩ := cpso_run
  exact ⟨o, h, hi, by
    rw [C71_cpso_partial env_ok halve_rising (Or.inr (Or.inr ⟨comparing_stable halve_rising, by norm_num [halve]⟩)), h]; rfl⟩

/-- The box `[-1/10, 1/10]^2`: the swarm is small from the start. -/
def smallBox : NdArr ℚ := { shape := [2, 2], get := fun l => if l.getD 1 0 = 0 then -1 / 10 else 1 / 10 }

def restartArgs : CPSO.Args ℚ := { cpsoArgs with bounds := smallBox, competitivity := some 2 }

/-- Adding a constant to the objective. -/
def lift : Val ℚ → Val ℚ
  | .nan => .nan
  | .ninf => .ninf
  | .fin k => .fin (k + 2 * 10 ^ 30)
  | .pinf => .pinf

theorem lift_rising : Rising lift := by
  intro a b
  cases a <;> cases b <;> simp [lift]

/-- The evaluated points of a run. -/
def points {p n : Nat} (r : Except PyErr (Output Nat ℚ p n)) : List (List ℚ) :=
  match r with
  | .ok o => o.evals.map fun x => List.ofFn x
  | .error _ => []

theorem points_map {p n : Nat} (φ : Val ℚ → Val ℚ) (r : Except PyErr (Output Nat ℚ p n)) :
    points (r.map (Output.map φ id id)) = points r := by
  cases r with
  | error e => rfl
  | ok o => show (o.evals.map id).map _ = o.evals.map _; rw [List.map_id]

end Concrete

open Stochopy.Concrete Concrete in
/-- C71 fails for `cpso` with restarts: adding the constant 2e30 to the objective changes the points that are evaluated, because a
restarted particle is given the personal best value 1e30, which is then better than every value of the objective. -/
theorem C71_cpso_violated :
    ¬ ∀ (a : CPSO.Args ℚ) (φ : Val ℚ → Val ℚ), Rising φ →
      CPSO.minimize env rng stableArgsort 10 (a.revalue φ) 0 =
        (CPSO.minimize env rng stableArgsort 10 a 0).map (Output.map φ id id) := by
  intro h
  have h1 := (congrArg points (h restartArgs lift lift_rising)).trans
    (points_map lift (CPSO.minimize env rng stableArgsort 10 restartArgs 0))
  exact absurd h1 (by decide +kernel)

end Stochopy.Props
