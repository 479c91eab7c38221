import Verif.Lemmas.Dtype
import Verif.Lemmas.Alias
import Verif.Spec.Dtype
import Verif.Props.Parallel

/-!
# C91: `x0` may be any array-like

`minimizeInt` and `minimizeList` are `minimize` called with an integer array and with a nested list (`Model/Dtype.lean`).
-/

set_option linter.unusedSectionVars false

namespace Stochopy
open Spec Concrete
variable {K σ : Type} [AddZeroClass K] [One K] [Sub K] [Mul K] [Div K] [Neg K] [NatCast K] [IntCast K] [Pow K ℕ] [ArrayOps K] [LinearOrder K] [IntParts K]
variable {env : Env} {R : Rng σ K} {srt : Argsort K} {fuel : Nat} {g : σ}

/-- The typed model with an array that stores what it is given is the model. -/
theorem C91_floats [NumFns K] (a : DE.Args K) (b : CPSO.Args K) :
    TypeIrrelevant (DE.minimize env R fuel a g) (DE.minimizeAs id env R fuel a g) ∧
    TypeIrrelevant (CPSO.minimize env R srt fuel b g) (CPSO.minimizeAs id env R srt fuel b g) := by
  rw [DE.minimizeAs_id, CPSO.minimizeAs_id]
  exact ⟨fun o h => h, fun o h => h⟩

/-! ## Nested lists -/

/-- With a nested list no call returns. -/
theorem C91_lists_raise [NumFns K] (he : env.Ok) (a : DE.Args K) (b : CPSO.Args K) (d : PSO.Args K) :
    (∀ o, DE.minimizeList env R fuel a g ≠ .ok o) ∧ (∀ o, CPSO.minimizeList env R srt fuel b g ≠ .ok o) ∧
    ∀ o, PSO.minimizeList env R srt fuel d g ≠ .ok o :=
  ⟨fun _ => DE.minimizeList_error he, fun _ => CPSO.minimizeList_error he, fun _ => CPSO.minimizeList_error he⟩

/-! ## Integer arrays -/

theorem DE.init_int {p n : Nat} {P : DE.Par σ K p n} {x : Pop K p n} {s0 : DE.State σ K p n} (hx : ∀ i, Integral (x i))
    (h : DE.init P (some x) g = .ok s0) :
    (∀ i, Integral (s0.X i)) ∧ Integral s0.gbest ∧ (∀ X, s0.caller = some X → X = s0.X) ∧ ∃ i, s0.gbest = s0.X i := by
  obtain ⟨i, hi, rfl⟩ := DE.init_ok h
  exact ⟨hx, hx i, fun X hX => (Option.some.inj hX).symm, i, rfl⟩

theorem x0Pop_int {a : CommonArgs K} {x0 : NdArr K} (h0 : a.x0 = some x0) (hx : IntegralArray x0) :
    ∃ x, a.x0Pop = some x ∧ ∀ i, Integral (x i) := by
  unfold CommonArgs.x0Pop
  rw [h0]
  exact ⟨_, rfl, fun i j => hx _⟩

/-- `de` on an integer array: the populations shown to the callback, and the caller's array afterwards, have integer
coordinates; with deferred updating so has the solution. -/
theorem C91_de_grid (he : env.Ok) {a : DE.Args K} {x0 : NdArr K} (h0 : a.x0 = some x0) (hx : IntegralArray x0)
    {o : Output σ K a.p a.ndim} (h : DE.minimizeInt env R fuel a g = .ok o) :
    (∀ d ∈ o.cbs, ∀ i, Integral (d.X i)) ∧ (∀ X, o.x0After = some X → ∀ i, Integral (X i)) ∧
    (Deferred a.updating a.workers a.backend → Integral o.res.x) := by
  obtain ⟨fn, P, s0, r, L, -, -, hinit, hrun, rfl⟩ := DE.minimizeInt_ok he h
  obtain ⟨x, hx0, hx⟩ := x0Pop_int h0 hx
  rw [hx0] at hinit
  obtain ⟨i1, i2, i3, -⟩ := DE.init_int hx hinit
  obtain ⟨l, st, msg, hH, -, hlog, -, rfl⟩ := run_hist hrun
  have key := hH.inv (fun s => (∀ i j, ∃ z : Int, s.X i j = (z : K)) ∧ (a.sync = true → ∀ j, ∃ z : Int, s.gbest j = (z : K)) ∧
      ∀ X, s.caller = some X → X = s.X) ⟨i1, fun _ => i2, i3⟩
    (fun _ _ _ _ _ hI hs => DE.stepAs_grid (Q := fun v => ∃ z : Int, v = (z : K)) (fun v => ⟨_, rfl⟩) hI hs) (fun _ _ _ h => h)
  obtain ⟨k1, k2, k3⟩ := key L.s (by simp)
  refine ⟨fun d hd i j => ?_, fun X hX i j => ?_, fun hs => k2 (sync_iff.2 hs)⟩
  · have := hlog.cbX
    have hm : d.X ∈ L.cbs.map CB.X := List.mem_map_of_mem hd
    rw [this] at hm
    split_ifs at hm
    · obtain ⟨s, hs, hs'⟩ := List.mem_map.1 (List.mem_reverse.1 hm)
      rw [← hs']
      exact (key s hs).1 i j
    · cases hm
  · rw [k3 X hX]; exact k1 i j

/-- Immediate updating: the value still belongs to the solution. -/
theorem C91_de_immediate_partial (he : env.Ok) {a : DE.Args K} {fn : Vec K a.ndim → Val K} (hfn : a.fn = some fn)
    (hs : ¬ Deferred a.updating a.workers a.backend) {o : Output σ K a.p a.ndim}
    (h : DE.minimizeInt env R fuel a g = .ok o) : ReportsEvaluatedPoint fn o := by
  obtain ⟨fn', P, s0, r, L, hfn', hobj, hinit, hrun, rfl⟩ := DE.minimizeInt_ok he h
  rw [hfn] at hfn'; cases hfn'
  have hsync : a.sync = false := by
    by_contra hc
    exact hs (sync_iff.1 (Bool.not_eq_false _ ▸ hc : a.sync = true))
  rw [hsync] at hrun
  obtain ⟨l, st, msg, hH, -, -, -, rfl⟩ := run_hist hrun
  obtain ⟨i, -, rfl⟩ := DE.init_ok hinit
  exact hH.inv (fun s => s.gfit = fn s.gbest ∧ s.gbest ∈ s.evals) ⟨hobj.pop _ _, by simp⟩
    (fun _ _ _ _ _ hI hs => DE.stepAsyncAs_best hobj hI hs) (fun _ _ _ h => h) L.s (by simp)

/-- Deferred updating: the value belongs to an evaluated point of which the solution is the integer part.  Missing: that
it belongs to the solution, which fails. -/
theorem C91_de_deferred_partial (he : env.Ok) {a : DE.Args K} {fn : Vec K a.ndim → Val K} (hfn : a.fn = some fn)
    (hs : Deferred a.updating a.workers a.backend) {o : Output σ K a.p a.ndim}
    (h : DE.minimizeInt env R fuel a g = .ok o) :
    ∃ y ∈ o.evals, o.res.fval = fn y ∧ (o.res.x = y ∨ ∀ j, o.res.x j = ((pyInt (y j) : Int) : K)) := by
  obtain ⟨fn', P, s0, r, L, hfn', hobj, hinit, hrun, rfl⟩ := DE.minimizeInt_ok he h
  rw [hfn] at hfn'; cases hfn'
  have hsync : a.sync = true := sync_iff.2 hs
  rw [hsync] at hrun
  obtain ⟨l, st, msg, hH, -, -, -, rfl⟩ := run_hist hrun
  obtain ⟨i, -, rfl⟩ := DE.init_ok hinit
  obtain ⟨-, y, hy, h1, h2⟩ := hH.inv (fun s => (∀ i, ∃ y ∈ s.evals, s.pbestfit i = fn y ∧ (s.X i = y ∨ s.X i = fun j => asInt (y j))) ∧
      ∃ y ∈ s.evals, s.gfit = fn y ∧ (s.gbest = y ∨ s.gbest = fun j => asInt (y j)))
    ⟨fun i => ⟨_, List.mem_ofFn.2 ⟨i, rfl⟩, hobj.pop _ _, Or.inl rfl⟩, _, List.mem_ofFn.2 ⟨i, rfl⟩, hobj.pop _ _, Or.inl rfl⟩
    (fun _ _ _ _ _ hI hs => DE.stepSyncAs_near hobj hI hs) (fun _ _ _ h => h) L.s (by simp)
  exact ⟨y, hy, h1, h2.imp id fun h j => congrFun h j⟩

/-- `cpso` on an integer array: the solution has integer coordinates; with immediate updating the objective is only ever
called on points with integer coordinates. -/
theorem C91_cpso_grid [NumFns K] (he : env.Ok) {a : CPSO.Args K} {x0 : NdArr K} (h0 : a.x0 = some x0) (hx : IntegralArray x0)
    {o : Output σ K a.p a.ndim} (h : CPSO.minimizeInt env R srt fuel a g = .ok o) :
    Integral o.res.x ∧ (¬ Deferred a.updating a.workers a.backend → ∀ x ∈ o.evals, Integral x) := by
  obtain ⟨fn, P, s0, r, L, -, -, -, hinit, hrun, rfl⟩ := CPSO.minimizeInt_ok he h
  obtain ⟨x, hx0, hx⟩ := x0Pop_int h0 hx
  rw [hx0] at hinit
  obtain ⟨i, -, rfl⟩ := CPSO.init_ok hinit
  obtain ⟨l, st, msg, hH, -, -, -, rfl⟩ := run_hist hrun
  have key := hH.inv (CPSO.Grid (fun v => ∃ z : Int, v = (z : K)) a.sync) ⟨hx, hx i, fun _ => hx, fun _ y hy j => by
      obtain ⟨i, rfl⟩ := List.mem_ofFn.1 hy
      exact hx i j⟩
    (fun _ _ _ _ _ hI hs => CPSO.stepAs_grid (fun v => ⟨_, rfl⟩) hI hs)
    (fun it _ _ hI => CPSO.postAs_grid (fun v => ⟨_, rfl⟩) it hI) L.s (by simp)
  refine ⟨key.gbest, fun hs => key.evals ?_⟩
  by_contra hc
  exact hs (sync_iff.1 (Bool.not_eq_false _ ▸ hc : a.sync = true))

theorem C91_pso_grid [NumFns K] (he : env.Ok) {a : PSO.Args K} {x0 : NdArr K} (h0 : a.x0 = some x0) (hx : IntegralArray x0)
    {o : Output σ K a.p a.ndim} (h : PSO.minimizeInt env R srt fuel a g = .ok o) :
    Integral o.res.x ∧ (¬ Deferred a.updating a.workers a.backend → ∀ x ∈ o.evals, Integral x) :=
  C91_cpso_grid (a := a.toCPSO) he h0 hx h

theorem C91_cpso_immediate_partial [NumFns K] (he : env.Ok) {a : CPSO.Args K} {fn : Vec K a.ndim → Val K} (hfn : a.fn = some fn)
    (hs : ¬ Deferred a.updating a.workers a.backend) {o : Output σ K a.p a.ndim}
    (h : CPSO.minimizeInt env R srt fuel a g = .ok o) : ReportsEvaluatedPoint fn o := by
  obtain ⟨fn', P, s0, r, L, hfn', hobj, -, hinit, hrun, rfl⟩ := CPSO.minimizeInt_ok he h
  rw [hfn] at hfn'; cases hfn'
  have hsync : a.sync = false := by
    by_contra hc
    exact hs (sync_iff.1 (Bool.not_eq_false _ ▸ hc : a.sync = true))
  rw [hsync] at hrun
  obtain ⟨l, st, msg, hH, -, -, -, rfl⟩ := run_hist hrun
  obtain ⟨i, -, rfl⟩ := CPSO.init_ok hinit
  refine hH.inv (fun s => s.gfit = fn s.gbest ∧ s.gbest ∈ s.evals) ⟨hobj.pop _ _, by simp⟩
    (fun _ _ _ _ _ hI hs => CPSO.stepAsyncAs_best hobj hI hs) (fun it s _ h => ?_) L.s (by simp)
  obtain ⟨h1, h2, h3⟩ := CPSO.postAs_same (P := P) (storeX := asInt) (storeP := asInt) it s
  show (CPSO.postAs asInt asInt P it s).gfit = fn (CPSO.postAs asInt asInt P it s).gbest ∧ (CPSO.postAs asInt asInt P it s).gbest ∈ (CPSO.postAs asInt asInt P it s).evals
  rw [h1, h2, h3]
  exact h

theorem C91_pso_immediate_partial [NumFns K] (he : env.Ok) {a : PSO.Args K} {fn : Vec K a.ndim → Val K} (hfn : a.fn = some fn)
    (hs : ¬ Deferred a.updating a.workers a.backend) {o : Output σ K a.p a.ndim}
    (h : PSO.minimizeInt env R srt fuel a g = .ok o) : ReportsEvaluatedPoint fn o :=
  C91_cpso_immediate_partial (a := a.toCPSO) he hfn hs h

/-- Deferred updating without restarts: as for `de`. -/
theorem C91_cpso_deferred_partial [NumFns K] (he : env.Ok) {a : CPSO.Args K} {fn : Vec K a.ndim → Val K} (hfn : a.fn = some fn)
    (hs : Deferred a.updating a.workers a.backend) (hγ : a.competitivity = none ∨ a.competitivity = some 0)
    {o : Output σ K a.p a.ndim} (h : CPSO.minimizeInt env R srt fuel a g = .ok o) :
    ∃ y ∈ o.evals, o.res.fval = fn y ∧ (o.res.x = y ∨ ∀ j, o.res.x j = ((pyInt (y j) : Int) : K)) := by
  obtain ⟨fn', P, s0, r, L, hfn', hobj, hg, hinit, hrun, rfl⟩ := CPSO.minimizeInt_ok he h
  rw [hfn] at hfn'; cases hfn'
  have hsync : a.sync = true := sync_iff.2 hs
  rw [hsync] at hrun
  obtain ⟨l, st, msg, hH, -, -, -, rfl⟩ := run_hist hrun
  obtain ⟨i, -, rfl⟩ := CPSO.init_ok hinit
  obtain ⟨-, y, hy, h1, h2⟩ := hH.inv (fun s => (∀ i, ∃ y ∈ s.evals, s.pbestfit i = fn y ∧ (s.pbest i = y ∨ s.pbest i = fun j => asInt (y j))) ∧
      ∃ y ∈ s.evals, s.gfit = fn y ∧ (s.gbest = y ∨ s.gbest = fun j => asInt (y j)))
    ⟨fun i => ⟨_, List.mem_ofFn.2 ⟨i, rfl⟩, hobj.pop _ _, Or.inl rfl⟩, _, List.mem_ofFn.2 ⟨i, rfl⟩, hobj.pop _ _, Or.inl rfl⟩
    (fun _ _ _ _ _ hI hs => CPSO.stepSyncAs_near hobj hI hs) (fun it s _ h => by
      have : (CPSO.algAs asInt P true).post it s = s := by
        show CPSO.postAs _ _ P it s = s
        unfold CPSO.postAs
        rw [hg]
        rcases hγ with hγ | hγ <;> simp [hγ]
      rw [this]
      exact h) L.s (by simp)
  exact ⟨y, hy, h1, h2.imp id fun h j => congrFun h j⟩

theorem C91_pso_deferred_partial [NumFns K] (he : env.Ok) {a : PSO.Args K} {fn : Vec K a.ndim → Val K} (hfn : a.fn = some fn)
    (hs : Deferred a.updating a.workers a.backend) {o : Output σ K a.p a.ndim} (h : PSO.minimizeInt env R srt fuel a g = .ok o) :
    ∃ y ∈ o.evals, o.res.fval = fn y ∧ (o.res.x = y ∨ ∀ j, o.res.x j = ((pyInt (y j) : Int) : K)) :=
  C91_cpso_deferred_partial (a := a.toCPSO) he hfn hs (Or.inl rfl) h

/-! ## Witnesses -/

/-- Corners and centre of the box, as integers. -/
def cornersX0 : NdArr ℚ :=
  { shape := [5, 2], get := fun l =>
      if l.getD 0 0 = 4 then 0 else if l.getD 1 0 = 0 then (if l.getD 0 0 < 2 then 1 else -1) else if l.getD 0 0 % 2 = 0 then 1 else -1 }

theorem cornersX0_int : IntegralArray cornersX0 := by
  intro l
  unfold cornersX0
  dsimp only
  split_ifs
  · exact ⟨0, by simp⟩
  · exact ⟨1, by simp⟩
  · exact ⟨-1, by simp⟩
  · exact ⟨1, by simp⟩
  · exact ⟨-1, by simp⟩

def deIntArgs (u : String) : DE.Args ℚ := { deArgs with x0 := some cornersX0, updating := u, mutation := 1 / 4, recombination := 1 }
def psoIntArgs (u : String) : PSO.Args ℚ := { psoArgs with x0 := some cornersX0, updating := u }

/-- The box `[1/2, 3]^2`. -/
def halfBounds : NdArr ℚ := { shape := [2, 2], get := fun l => if l.getD 1 0 = 0 then 1 / 2 else 3 }

/-- Integer points of that box. -/
def insideX0 : NdArr ℚ := { shape := [5, 2], get := fun l => ((l.getD 0 0 + l.getD 1 0) % 3 + 1 : Nat) }

def psoHalfArgs : PSO.Args ℚ := { psoArgs with x0 := some insideX0, updating := "immediate", bounds := halfBounds, maxiter := 2 }

theorem insideX0_int : IntegralArray insideX0 := fun l => ⟨(((l.getD 0 0 + l.getD 1 0) % 3 + 1 : Nat) : Int), (Int.cast_natCast _).symm⟩

/-- Do both runs return, with different solutions? -/
def differ {p n : Nat} (r r' : Except PyErr (Output Nat ℚ p n)) : Bool :=
  match r, r' with
  | .ok o, .ok o' => decide (∃ j, o.res.x j ≠ o'.res.x j)
  | _, _ => false

theorem not_irrelevant {p n : Nat} {r r' : Except PyErr (Output Nat ℚ p n)} (h : differ r r' = true) : ¬ TypeIrrelevant r r' := by
  intro ht
  cases r with
  | error e => simp [differ] at h
  | ok o =>
    rw [ht o rfl] at h
    simp [differ] at h

/-- The type of `x0` matters in both modes, for `de`, … -/
theorem C91_de_violated :
    IntegralArray cornersX0 ∧ ∀ u, u = "deferred" ∨ u = "immediate" →
      ¬ TypeIrrelevant (DE.minimize Concrete.env rng 10 (deIntArgs u) 0) (DE.minimizeInt Concrete.env rng 10 (deIntArgs u) 0) := by
  refine ⟨cornersX0_int, ?_⟩
  rintro u (rfl | rfl)
  · exact not_irrelevant (by decide +kernel)
  · exact not_irrelevant (by decide +kernel)

/-- … `pso` … -/
theorem C91_pso_violated :
    IntegralArray cornersX0 ∧ ∀ u, u = "deferred" ∨ u = "immediate" →
      ¬ TypeIrrelevant (PSO.minimize Concrete.env rng stableArgsort 10 (psoIntArgs u) 0)
        (PSO.minimizeInt Concrete.env rng stableArgsort 10 (psoIntArgs u) 0) := by
  refine ⟨cornersX0_int, ?_⟩
  rintro u (rfl | rfl)
  · exact not_irrelevant (by decide +kernel)
  · exact not_irrelevant (by decide +kernel)

/-- … and `cpso`. -/
theorem C91_cpso_violated :
    ∀ u, u = "deferred" ∨ u = "immediate" →
      ¬ TypeIrrelevant (CPSO.minimize Concrete.env rng stableArgsort 10 (psoIntArgs u).toCPSO 0)
        (CPSO.minimizeInt Concrete.env rng stableArgsort 10 (psoIntArgs u).toCPSO 0) :=
  C91_pso_violated.2

/-- Deferred updating: the reported value is not the value of the reported solution. -/
theorem C91_value_violated :
    (∃ o, DE.minimizeInt Concrete.env rng 10 (deIntArgs "deferred") 0 = .ok o ∧ o.res.fval ≠ sphere2 o.res.x) ∧
    ∃ o, PSO.minimizeInt Concrete.env rng stableArgsort 10 (psoIntArgs "deferred") 0 = .ok o ∧ o.res.fval ≠ sphere2 o.res.x := by
  refine ⟨?_, ?_⟩
  · obtain ⟨o, h, ht⟩ := returns_iff (r := DE.minimizeInt Concrete.env rng 10 (deIntArgs "deferred") 0)
      (t := fun o => decide (o.res.fval ≠ sphere2 o.res.x)) (by decide +kernel)
    exact ⟨o, h, of_decide_eq_true ht⟩
  · obtain ⟨o, h, ht⟩ := returns_iff (r := PSO.minimizeInt Concrete.env rng stableArgsort 10 (psoIntArgs "deferred") 0)
      (t := fun o => decide (o.res.fval ≠ sphere2 o.res.x)) (by decide +kernel)
    exact ⟨o, h, of_decide_eq_true ht⟩

/-- Immediate updating with `constraints="Shrink"`: the objective is called outside of the box although all initial particles are
inside. -/
theorem C91_box_violated :
    IntegralArray insideX0 ∧ (∀ i j, 1 / 2 ≤ insideX0.get [i, j] ∧ insideX0.get [i, j] ≤ 3) ∧
    ∃ o, PSO.minimizeInt Concrete.env rng stableArgsort 10 psoHalfArgs 0 = .ok o ∧ ∃ x ∈ o.evals, ∃ j, x j < 1 / 2 := by
  refine ⟨insideX0_int, fun i j => ?_, ?_⟩
  · have h : (i + j) % 3 < 3 := Nat.mod_lt _ (by norm_num)
    have h1 : insideX0.get [i, j] = (((i + j) % 3 + 1 : Nat) : ℚ) := rfl
    rw [h1]
    generalize (i + j) % 3 = k at h
    rcases (by omega : k = 0 ∨ k = 1 ∨ k = 2) with rfl | rfl | rfl <;> norm_num
  · obtain ⟨o, h, ht⟩ := returns_iff (r := PSO.minimizeInt Concrete.env rng stableArgsort 10 psoHalfArgs 0)
      (t := fun o => o.evals.any fun x => decide (∃ j, x j < 1 / 2)) (by decide +kernel)
    rw [List.any_eq_true] at ht
    obtain ⟨x, hx, hj⟩ := ht
    exact ⟨o, h, x, hx, of_decide_eq_true hj⟩

/-- Nested lists: a run that returns with an array and raises with a list. -/
theorem C91_lists_violated :
    ¬ TypeIrrelevant (DE.minimize Concrete.env rng 10 (deIntArgs "deferred") 0) (DE.minimizeList Concrete.env rng 10 (deIntArgs "deferred") 0) ∧
    ¬ TypeIrrelevant (PSO.minimize Concrete.env rng stableArgsort 10 (psoIntArgs "deferred") 0)
      (PSO.minimizeList Concrete.env rng stableArgsort 10 (psoIntArgs "deferred") 0) := by
  refine ⟨fun h => ?_, fun h => ?_⟩
  · obtain ⟨o, ho, -⟩ := returns_iff (r := DE.minimize Concrete.env rng 10 (deIntArgs "deferred") 0) (t := fun _ => true) (by decide +kernel)
    exact DE.minimizeList_error env_ok (h o ho)
  · obtain ⟨o, ho, -⟩ := returns_iff (r := PSO.minimize Concrete.env rng stableArgsort 10 (psoIntArgs "deferred") 0) (t := fun _ => true)
      (by decide +kernel)
    exact CPSO.minimizeList_error env_ok (h o ho)

/-- Runs to which the theorems above apply. -/
example : ∃ o, DE.minimizeInt Concrete.env rng 10 (deIntArgs "immediate") 0 = .ok o ∧ ReportsEvaluatedPoint sphere2 o ∧ 3 ≤ o.cbs.length := by
  obtain ⟨o, h, ht⟩ := returns_iff (r := DE.minimizeInt Concrete.env rng 10 (deIntArgs "immediate") 0)
    (t := fun o => decide (3 ≤ o.cbs.length)) (by decide +kernel)
  exact ⟨o, h, C91_de_immediate_partial (fn := sphere2) env_ok rfl (by simp [Deferred, deIntArgs, deArgs, common]) h, of_decide_eq_true ht⟩

example : ∃ o, PSO.minimizeInt Concrete.env rng stableArgsort 10 (psoIntArgs "immediate") 0 = .ok o ∧ Integral o.res.x ∧
    ∀ x ∈ o.evals, Integral x := by
  obtain ⟨o, h, -⟩ := returns_iff (r := PSO.minimizeInt Concrete.env rng stableArgsort 10 (psoIntArgs "immediate") 0)
    (t := fun _ => true) (by decide +kernel)
  obtain ⟨h1, h2⟩ := C91_pso_grid env_ok rfl cornersX0_int h
  exact ⟨o, h, h1, h2 (by simp [Deferred, psoIntArgs, psoArgs, common])⟩

end Stochopy
