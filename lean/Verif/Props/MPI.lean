import Verif.Lemmas.MPIAgree
import Verif.Lemmas.MPIRestart
import Verif.Lemmas.Optimizer
import Verif.Spec.MPI
import Verif.Props.EvoRuns

/-!
# C76: with `backend="mpi"` every rank returns the result of rank 0

All ranks run the whole optimizer; `Bcast` is meant to give them the population of rank 0.
-/

set_option linter.unusedSectionVars false

namespace Stochopy
open Spec Proc
variable {K σ : Type} [AddZeroClass K] [One K] [Sub K] [Mul K] [Div K] [Neg K] [NatCast K] [IntCast K] [Pow K ℕ] [ArrayOps K] [IntParts K] [LinearOrder K]

section
variable {α : Type} {p n m : Nat}

theorem allEnd_of_agree {values : Pop K p n → Fin p → Val K} {rel rel' : α → α → Prop} {q : Proc K p n α} {qs : Fin m → Proc K p n α}
    (h : ∀ r, Agree values rel q (qs r)) (hr : ∀ a b, rel a b → rel' a b) : AllEnd rel' (q.seq values) (mpirun values q qs) := by
  obtain ⟨os, h1, h2⟩ := mpirun_agree h
  refine ⟨os, h1, fun r => ?_⟩
  have := h2 r
  cases hq : q.seq values <;> cases ho : os r <;> rw [hq, ho] at this <;> simp only [Same] at this
  · exact Or.inr ⟨_, rfl, by rw [this]⟩
  · exact Or.inl ⟨_, _, rfl, rfl, hr _ _ this⟩

theorem allEnd_of_eq {values : Pop K p n → Fin p → Val K} {q : Proc K p n α} {qs : Fin m → Proc K p n α} (h : ∀ r, qs r = q) :
    AllEnd Eq (q.seq values) (mpirun values q qs) :=
  allEnd_of_agree (rel := Eq) (fun r => by rw [h r]; exact Agree.refl (fun _ => rfl) q) fun _ _ h => h

end

theorem sameRun_rng {p n : Nat} {o o' : Output σ K p n} (h : ∃ g, o' = { o with rng := g }) : SameRun o o' := by
  obtain ⟨g, rfl⟩ := h
  exact ⟨rfl, rfl, rfl, rfl⟩

theorem sameValues_shown {p n : Nat} {eqx : Prop} {o o' : Output σ K p n} (h : CPSO.Shown eqx o o') : SameValues o o' := by
  obtain ⟨h1, h2, h3, -⟩ := h
  simp only [Result.vals, Prod.mk.injEq] at h1
  exact ⟨h1.1, h1.2.1, h1.2.2.1, h1.2.2.2.1, h1.2.2.2.2, h2, h3⟩

/-! ## `de`: the ranks agree, whatever their generators -/

theorem C76_de {env : Env} {R : Rng σ K} {fuel : Nat} {a : DE.Args K} (hb : a.backend = some "mpi") (g : σ)
    (gs : Fin (env.mpiSize - 1) → σ) : AllEnd SameRun (DE.minimize env R fuel a g) (DE.launch env R fuel a g gs) := by
  rw [← DE.seq_rank hb]
  exact allEnd_of_agree (fun r => DE.agree_rank g (gs r) _) fun _ _ => sameRun_rng

/-! ## Rank 0 always returns what `minimize` is proved to return elsewhere -/

section
variable [NumFns K]

theorem C76_cpso_root {env : Env} {R : Rng σ K} {srt : Argsort K} {fuel : Nat} {a : CPSO.Args K} (hb : a.backend = some "mpi") {g : σ}
    {gs : Fin (env.mpiSize - 1) → σ} {x : Except PyErr (Output σ K a.p a.ndim)} {os : Fin (env.mpiSize - 1) → Except PyErr (Output σ K a.p a.ndim)}
    (h : CPSO.launch env R srt fuel a g gs = .done x os) : x = CPSO.minimize env R srt fuel a g := by
  rw [← CPSO.seq_rank hb]
  exact mpirun_root h

theorem C76_pso_root {env : Env} {R : Rng σ K} {srt : Argsort K} {fuel : Nat} {a : PSO.Args K} (hb : a.backend = some "mpi") {g : σ}
    {gs : Fin (env.mpiSize - 1) → σ} {x : Except PyErr (Output σ K a.p a.ndim)} {os : Fin (env.mpiSize - 1) → Except PyErr (Output σ K a.p a.ndim)}
    (h : PSO.launch env R srt fuel a g gs = .done x os) : x = PSO.minimize env R srt fuel a g :=
  C76_cpso_root (a := a.toCPSO) hb h

theorem C76_na_root {env : Env} {R : Rng σ K} {srt : Argsort K} {fuel : Nat} {a : NA.Args K} (hb : a.backend = some "mpi") {g : σ}
    {gs : Fin (env.mpiSize - 1) → σ} {x : Except PyErr (Output σ K a.p a.ndim)} {os : Fin (env.mpiSize - 1) → Except PyErr (Output σ K a.p a.ndim)}
    (h : NA.launch env R srt fuel a g gs = .done x os) : x = NA.minimize env R srt fuel a g := by
  rw [← NA.seq_rank hb]
  exact mpirun_root h

theorem C76_cmaes_root {env : Env} {R : Rng σ K} {srt : Argsort K} {eigh : CMAES.Eigh K} {fuel : Nat} {a : Evo.Args K}
    (hb : a.backend = some "mpi") {junk : Vec K a.ndim} {g : σ} {junks : Fin (env.mpiSize - 1) → Vec K a.ndim} {gs : Fin (env.mpiSize - 1) → σ}
    {x : Except PyErr (Output σ K a.p a.ndim)} {os : Fin (env.mpiSize - 1) → Except PyErr (Output σ K a.p a.ndim)}
    (h : CMAES.launch env R srt eigh fuel a junk g junks gs = .done x os) : x = CMAES.minimize env R srt eigh fuel a junk g := by
  rw [← CMAES.seq_rank hb]
  exact mpirun_root h

theorem C76_vdcma_root {env : Env} {R : Rng σ K} {srt : Argsort K} {fuel : Nat} {a : Evo.Args K}
    (hb : a.backend = some "mpi") {junk : Vec K a.ndim} {g : σ} {junks : Fin (env.mpiSize - 1) → Vec K a.ndim} {gs : Fin (env.mpiSize - 1) → σ}
    {x : Except PyErr (Output σ K a.p a.ndim)} {os : Fin (env.mpiSize - 1) → Except PyErr (Output σ K a.p a.ndim)}
    (h : VDCMA.launch env R srt fuel a junk g junks gs = .done x os) : x = VDCMA.minimize env R srt fuel a junk g := by
  rw [← VDCMA.seq_rank hb]
  exact mpirun_root h

/-! ## With a seed the ranks agree

For `cmaes` and `vdcma` the contents of the uninitialised arrays must be the same as well (they are only shown by `xall`). -/

theorem C76_cpso_seed_partial {env : Env} {R : Rng σ K} {srt : Argsort K} {fuel : Nat} {a : CPSO.Args K} (hb : a.backend = some "mpi")
    (hs : a.seed ≠ none) (g : σ) (gs : Fin (env.mpiSize - 1) → σ) :
    AllEnd Eq (CPSO.minimize env R srt fuel a g) (CPSO.launch env R srt fuel a g gs) := by
  rw [← CPSO.seq_rank hb]
  refine allEnd_of_eq fun r => ?_
  have : a.seeded R (gs r) = a.seeded R g := by unfold CommonArgs.seeded; cases h : a.seed <;> simp_all
  unfold CPSO.rank
  rw [this]

theorem C76_pso_seed_partial {env : Env} {R : Rng σ K} {srt : Argsort K} {fuel : Nat} {a : PSO.Args K} (hb : a.backend = some "mpi")
    (hs : a.seed ≠ none) (g : σ) (gs : Fin (env.mpiSize - 1) → σ) :
    AllEnd Eq (PSO.minimize env R srt fuel a g) (PSO.launch env R srt fuel a g gs) :=
  C76_cpso_seed_partial (a := a.toCPSO) hb hs g gs

theorem C76_na_seed_partial {env : Env} {R : Rng σ K} {srt : Argsort K} {fuel : Nat} {a : NA.Args K} (hb : a.backend = some "mpi")
    (hs : a.seed ≠ none) (g : σ) (gs : Fin (env.mpiSize - 1) → σ) :
    AllEnd Eq (NA.minimize env R srt fuel a g) (NA.launch env R srt fuel a g gs) := by
  rw [← NA.seq_rank hb]
  refine allEnd_of_eq fun r => ?_
  have : a.seeded R (gs r) = a.seeded R g := by unfold CommonArgs.seeded; cases h : a.seed <;> simp_all
  unfold NA.rank
  rw [this]

theorem C76_cmaes_seed_partial {env : Env} {R : Rng σ K} {srt : Argsort K} {eigh : CMAES.Eigh K} {fuel : Nat} {a : Evo.Args K}
    (hb : a.backend = some "mpi") (hs : a.seed ≠ none) (junk : Vec K a.ndim) (g : σ) (gs : Fin (env.mpiSize - 1) → σ) :
    AllEnd Eq (CMAES.minimize env R srt eigh fuel a junk g) (CMAES.launch env R srt eigh fuel a junk g (fun _ => junk) gs) := by
  rw [← CMAES.seq_rank hb]
  refine allEnd_of_eq fun r => ?_
  have : a.seeded R (gs r) = a.seeded R g := by unfold CommonArgs.seeded; cases h : a.seed <;> simp_all
  unfold CMAES.rank
  rw [this]

theorem C76_vdcma_seed_partial {env : Env} {R : Rng σ K} {srt : Argsort K} {fuel : Nat} {a : Evo.Args K}
    (hb : a.backend = some "mpi") (hs : a.seed ≠ none) (junk : Vec K a.ndim) (g : σ) (gs : Fin (env.mpiSize - 1) → σ) :
    AllEnd Eq (VDCMA.minimize env R srt fuel a junk g) (VDCMA.launch env R srt fuel a junk g (fun _ => junk) gs) := by
  rw [← VDCMA.seq_rank hb]
  refine allEnd_of_eq fun r => ?_
  have : a.seeded R (gs r) = a.seeded R g := by unfold CommonArgs.seeded; cases h : a.seed <;> simp_all
  unfold VDCMA.rank
  rw [this]

/-! ## `pso` and `cpso` with `x0`: the ranks agree, whatever their generators -/

theorem C76_pso_partial {env : Env} {R : Rng σ K} {srt : Argsort K} {fuel : Nat} {a : PSO.Args K} (hb : a.backend = some "mpi")
    (hx : a.x0Pop ≠ none) (g : σ) (gs : Fin (env.mpiSize - 1) → σ) :
    AllEnd SameRun (PSO.minimize env R srt fuel a g) (PSO.launch env R srt fuel a g gs) := by
  show AllEnd SameRun (CPSO.minimize env R srt fuel a.toCPSO g) (CPSO.launch env R srt fuel a.toCPSO g gs)
  rw [← CPSO.seq_rank (a := a.toCPSO) hb]
  exact allEnd_of_agree (fun r => CPSO.agree_rank (a := a.toCPSO) (rs := False) (eqx := True) g (gs r) (Or.inr (Or.inl rfl)) (fun h => h.elim)
    fun _ => hx) fun _ _ h => sameRun_rng (h.2.2.2.2 trivial)

/-- With restarts, if the objective stays below the value `1e30` that marks a restarted particle. -/
theorem C76_cpso_partial {env : Env} (he : env.Ok) {R : Rng σ K} {srt : Argsort K} {fuel : Nat} {a : CPSO.Args K}
    (hb : a.backend = some "mpi") (hx : a.x0Pop ≠ none) (hf : ∀ fn, a.fn = some fn → ∀ x, fn x < .fin (10 ^ 30)) (g : σ)
    (gs : Fin (env.mpiSize - 1) → σ) : AllEnd SameRun (CPSO.minimize env R srt fuel a g) (CPSO.launch env R srt fuel a g gs) := by
  rw [← CPSO.seq_rank hb]
  cases hfn : a.fn with
  | none =>
    refine allEnd_of_agree (rel := SameRun) (fun r => ?_) fun _ _ h => h
    unfold CPSO.rank
    rw [hfn]
    exact (Agree.refl (rel := fun _ _ => True) (fun _ => trivial) _).bind fun _ _ _ => .fail
  | some fn =>
    refine allEnd_of_agree (fun r => CPSO.agree_rank (rs := True) (eqx := True) g (gs r) (Or.inl trivial) (fun _ => ⟨trivial, fun x i => ?_⟩)
      fun _ => hx) fun _ _ h => sameRun_rng (h.2.2.2.2 trivial)
    unfold CommonArgs.mpiValues
    rw [hfn]
    dsimp only
    rw [mpiPop_eq he]
    exact hf fn hfn _

/-! ## `pso` and `na`: the ranks finish together with the same values, whatever their generators -/

theorem C76_pso_values {env : Env} {R : Rng σ K} {srt : Argsort K} {fuel : Nat} {a : PSO.Args K} (hb : a.backend = some "mpi") (g : σ)
    (gs : Fin (env.mpiSize - 1) → σ) : AllEnd SameValues (PSO.minimize env R srt fuel a g) (PSO.launch env R srt fuel a g gs) := by
  show AllEnd SameValues (CPSO.minimize env R srt fuel a.toCPSO g) (CPSO.launch env R srt fuel a.toCPSO g gs)
  rw [← CPSO.seq_rank (a := a.toCPSO) hb]
  exact allEnd_of_agree (fun r => CPSO.agree_rank (a := a.toCPSO) (rs := False) (eqx := False) g (gs r) (Or.inr (Or.inl rfl)) (fun h => h.elim)
    fun h => h.elim) fun _ _ h => sameValues_shown h

/-- With restarts each rank restarts its own particles; the values are common as long as the objective stays below the value `1e30` that
marks a restarted particle. -/
theorem C76_cpso_values_partial {env : Env} (he : env.Ok) {R : Rng σ K} {srt : Argsort K} (hsrt : IsArgsort srt) {fuel : Nat} {a : CPSO.Args K}
    [CPSO.FewRestarts K a.p] (hb : a.backend = some "mpi") (hf : ∀ fn, a.fn = some fn → ∀ x, fn x < .fin (10 ^ 30)) (g : σ)
    (gs : Fin (env.mpiSize - 1) → σ) : AllEnd SameValues (CPSO.minimize env R srt fuel a g) (CPSO.launch env R srt fuel a g gs) := by
  rw [← CPSO.seq_rank hb]
  cases hfn : a.fn with
  | none =>
    refine allEnd_of_agree (rel := SameValues) (fun r => ?_) fun _ _ h => h
    unfold CPSO.rank
    rw [hfn]
    exact (Agree.refl (rel := fun _ _ => True) (fun _ => trivial) _).bind fun _ _ _ => .fail
  | some fn =>
    refine allEnd_of_agree (fun r => CPSO.agree_values hsrt g (gs r) fun x i => ?_) fun o o' h => ?_
    · unfold CommonArgs.mpiValues
      rw [hfn]
      dsimp only
      rw [mpiPop_eq he]
      exact hf fn hfn _
    · obtain ⟨h1, h2, h3⟩ := h
      simp only [Result.vals, Prod.mk.injEq] at h1
      exact ⟨h1.1, h1.2.1, h1.2.2.1, h1.2.2.2.1, h1.2.2.2.2, h2, h3⟩

theorem C76_na_values {env : Env} {R : Rng σ K} {srt : Argsort K} {fuel : Nat} {a : NA.Args K} (hb : a.backend = some "mpi") (g : σ)
    (gs : Fin (env.mpiSize - 1) → σ) : AllEnd SameValues (NA.minimize env R srt fuel a g) (NA.launch env R srt fuel a g gs) := by
  rw [← NA.seq_rank hb]
  exact allEnd_of_agree (fun r => NA.agree_rank g (gs r)) fun _ _ h => sameValues_shown h

end

/-! ## Without a seed and without `x0` the other ranks return points of their own

In all cases there are two ranks, and the point returned by the second one does not have the value that is returned with it. -/

namespace Concrete

/-- Three individuals, two iterations, no seed. -/
def mpiCommon : CommonArgs ℚ :=
  { common with seed := none, backend := some "mpi", popsize := 3, maxiter := 2, returnAll := false, callback := none }

/-- Both ranks return; the objective at the point returned by rank 0 is the value returned by both; it is not the objective at the
point returned by rank 1. -/
def strays {p n : Nat} (fn : Vec ℚ n → Val ℚ) (E : Ending (Output Nat ℚ p n) 1) : Bool :=
  match E with
  | .done (.ok o) os =>
    match os 0 with
    | .ok o' => decide (o.res.success = o'.res.success) && decide (fn o.res.x = o.res.fval) && decide (o'.res.fval = o.res.fval) && decide (fn o'.res.x ≠ o'.res.fval)
    | _ => false
  | _ => false

def hangs {α : Type} {m : Nat} (E : Ending α m) : Bool :=
  match E with
  | .deadlock => true
  | _ => false

end Concrete

open Concrete

theorem not_allEnd_of_strays {p n : Nat} {fn : Vec ℚ n → Val ℚ} {E : Ending (Output Nat ℚ p n) 1} (h : strays fn E = true)
    (x : Except PyErr (Output Nat ℚ p n)) : ¬ AllEnd SameRun x E := by
  rintro ⟨os, rfl, h1⟩
  unfold strays at h
  have := h1 0
  cases x with
  | error e => simp at h
  | ok o =>
    dsimp only at h
    rcases this with ⟨o1, o2, h1, h2, h3⟩ | ⟨e, h1, -⟩
    · cases h1
      rw [h2] at h
      simp only [Bool.and_eq_true, decide_eq_true_eq] at h
      obtain ⟨⟨⟨-, h4⟩, h5⟩, h6⟩ := h
      rw [h3.res] at h6
      exact h6 h4
    · cases h1

theorem C76_pso_violated : ∃ gs, ¬ AllEnd SameRun (PSO.minimize env rng stableArgsort 10 { psoArgs with toCommonArgs := mpiCommon } 0)
    (PSO.launch env rng stableArgsort 10 { psoArgs with toCommonArgs := mpiCommon } 0 gs) :=
  ⟨fun _ => 1, not_allEnd_of_strays (fn := sphere2) (by decide +kernel) _⟩

theorem C76_cpso_violated : ∃ gs, ¬ AllEnd SameRun (CPSO.minimize env rng stableArgsort 10 { cpsoArgs with toCommonArgs := mpiCommon } 0)
    (CPSO.launch env rng stableArgsort 10 { cpsoArgs with toCommonArgs := mpiCommon } 0 gs) :=
  ⟨fun _ => 1, not_allEnd_of_strays (fn := sphere2) (by decide +kernel) _⟩

theorem C76_na_violated : ∃ gs, ¬ AllEnd SameRun (NA.minimize env rng stableArgsort 10 { naArgs with toCommonArgs := mpiCommon } 1)
    (NA.launch env rng stableArgsort 10 { naArgs with toCommonArgs := mpiCommon } 1 gs) :=
  ⟨fun _ => 5, not_allEnd_of_strays (fn := sphere2) (by decide +kernel) _⟩

namespace Concrete

def mpiEvo : Evo.Args ℚ :=
  { evoArgs with seed := none, backend := some "mpi", maxiter := 1, popsize := 2, returnAll := false, callback := none }

/-- As at the end of a converging run: the step size is close to the one for which a rank stops. -/
def mpiFine : Evo.Args ℚ := { mpiEvo with maxiter := 2, sigma := 1 / 10 ^ 9 }

end Concrete

theorem C76_cmaes_violated : ∃ gs, ¬ AllEnd SameRun (CMAES.minimize env rng stableArgsort eighDiag 10 mpiEvo junk0 1)
    (CMAES.launch env rng stableArgsort eighDiag 10 mpiEvo junk0 1 (fun _ => junk0) gs) :=
  ⟨fun _ => 5, not_allEnd_of_strays (fn := sphere2) (by decide +kernel) _⟩

theorem C76_vdcma_violated : ∃ gs, ¬ AllEnd SameRun (VDCMA.minimize env rng stableArgsort 10 mpiEvo junk0 1)
    (VDCMA.launch env rng stableArgsort 10 mpiEvo junk0 1 (fun _ => junk0) gs) :=
  ⟨fun _ => 2, not_allEnd_of_strays (fn := sphere2) (by decide +kernel) _⟩

/-- `cmaes` need not even end: rank 1 stops while rank 0 waits for it in the wrapper. -/
theorem C76_cmaes_deadlock_violated : ∃ gs, CMAES.launch env rng stableArgsort eighDiag 10 mpiFine junk0 1 (fun _ => junk0) gs = .deadlock := by
  refine ⟨fun _ => 5, ?_⟩
  have h : hangs (CMAES.launch env rng stableArgsort eighDiag 10 mpiFine junk0 1 (fun _ => junk0) fun _ => 5) = true := by decide +kernel
  revert h
  generalize CMAES.launch env rng stableArgsort eighDiag 10 mpiFine junk0 1 (fun _ => junk0) (fun _ => 5) = E
  intro h
  cases E with
  | done _ _ => cases h
  | deadlock => rfl

/-! ## Cases meeting the hypotheses -/

namespace Concrete

/-- Both ranks return the same best point after `k` iterations, with different generators. -/
def together {p n : Nat} (k : Nat) (E : Ending (Output Nat ℚ p n) 1) : Bool :=
  match E with
  | .done (.ok o) os =>
    match os 0 with
    | .ok o' => decide (o.res.nit = k) && decide (o'.res.x = o.res.x) && decide (o'.rng ≠ o.rng)
    | _ => false
  | _ => false

def mpiX0 : NdArr ℚ := { shape := [3, 2], get := fun l => 1 / 10 + (l.getD 0 0 : ℚ) / 100 + (l.getD 1 0 : ℚ) / 50 }

end Concrete

example : together 2 (DE.launch env rng 10 { deArgs with toCommonArgs := mpiCommon } 1 fun _ => 5) = true := by decide +kernel

example : together 2 (PSO.launch env rng stableArgsort 10 { psoArgs with toCommonArgs := { mpiCommon with x0 := some mpiX0 } } 1 fun _ => 5) = true ∧
    (({ mpiCommon with x0 := some mpiX0 } : CommonArgs ℚ).x0Pop ≠ none) := ⟨by decide +kernel, by simp [CommonArgs.x0Pop]⟩

/-- The swarm is small at the start, so that particles are restarted. -/
example : together 3 (CPSO.launch env rng stableArgsort 10 { cpsoArgs with competitivity := some 2, toCommonArgs := { mpiCommon with x0 := some mpiX0, maxiter := 3 } } 1 fun _ => 5) = true := by
  decide +kernel

namespace Concrete

/-- An objective that stays below `1e30`. -/
def capped (x : Vec ℚ 2) : Val ℚ := if sphere2 x < .fin 100 then sphere2 x else .fin 100

/-- A small box, in which the swarm is small from the start, and no `x0`. -/
def mpiCapped : CPSO.Args ℚ :=
  { cpsoArgs with competitivity := some 2, toCommonArgs := { mpiCommon with bounds := { shape := [2, 2], get := fun l => (if l.getD 0 0 = 0 then 3 / 5 else -(1 / 2)) + (if l.getD 1 0 = 0 then -(1 / 20) else 1 / 20) }, ftol := .fin 0, fn := some capped, maxiter := 3 } }

/-- Both ranks end with the same value, at different points. -/
def asunder {p n : Nat} (k : Nat) (E : Ending (Output Nat ℚ p n) 1) : Bool :=
  match E with
  | .done (.ok o) os =>
    match os 0 with
    | .ok o' => decide (o.res.nit = k) && decide (o'.res.fval = o.res.fval) && decide (o'.res.x ≠ o.res.x)
    | _ => false
  | _ => false

end Concrete

example : asunder 3 (CPSO.launch env rng stableArgsort 10 mpiCapped 0 fun _ => 1) = true := by decide +kernel

/-- Particles are restarted: without `competitivity` the generator of rank 0 is left in another state. -/
example : (match CPSO.minimize env rng stableArgsort 10 mpiCapped 0, CPSO.minimize env rng stableArgsort 10 { mpiCapped with competitivity := none } 0 with
    | .ok o, .ok o' => decide (o.rng ≠ o'.rng)
    | _, _ => false) = true := by decide +kernel

example : AllEnd SameValues (CPSO.minimize env rng stableArgsort 10 mpiCapped 0) (CPSO.launch env rng stableArgsort 10 mpiCapped 0 fun _ => 1) := by
  refine C76_cpso_values_partial env_ok isArgsort_stable rfl (fun fn hfn x => ?_) _ _
  obtain rfl : capped = fn := by injection hfn
  unfold capped
  split_ifs with h
  · exact Val.lt_of_lt_of_le' h (by decide +kernel)
  · decide +kernel

end Stochopy
