import Verif.Lemmas.IntFun
import Verif.Lemmas.Alias
import Verif.Spec.IntFun
import Verif.Props.Dtype
import Verif.Props.EvoRuns

/-!
# C92: an objective may return integers

`minimizeVal` is `minimize` for an objective that returns Python integers where `isInt` says so (`Model/IntFun.lean`).
-/

set_option linter.unusedSectionVars false

namespace Stochopy
open Spec Concrete
variable {K σ : Type} [AddZeroClass K] [One K] [Sub K] [Mul K] [Div K] [Neg K] [NatCast K] [IntCast K] [Pow K ℕ] [ArrayOps K] [LinearOrder K] [IntParts K]
variable {env : Env} {R : Rng σ K} {srt : Argsort K} {fuel : Nat} {g : σ} {big : Int}

theorem intsRoundTrip_field {F : Type} [Field F] [LinearOrder F] [IsStrictOrderedRing F] [FloorRing F] : IntsRoundTrip F := by
  intro z
  unfold pyInt
  split_ifs <;> simp

theorem storeVal_ints {n : Nat} {fn : Vec K n → Val K} (hK : IntsRoundTrip K) (h : ∀ x, ∃ z : Int, fn x = .fin (z : K)) (b : Bool) (x : Vec K n) :
    storeVal b (fn x) = fn x := by
  obtain ⟨z, hz⟩ := h x
  exact storeVal_eq ⟨_, hz, hK z⟩ b

/-! ## Where the types do not matter -/

/-- An objective that never returns integers: the typed model is the model. -/
theorem C92_floats [NumFns K] (he : env.Ok) (a : DE.Args K) (b : CPSO.Args K) (c : PSO.Args K) (d : NA.Args K) (e : 0 < a.p) (e' : 0 < b.p)
    (e'' : 0 < c.p) (e3 : 0 < d.p) :
    DE.minimizeVal env R fuel a (fun _ => false) g = DE.minimize env R fuel a g ∧
    CPSO.minimizeVal env R srt fuel big b (fun _ => false) g = CPSO.minimize env R srt fuel b g ∧
    PSO.minimizeVal env R srt fuel c (fun _ => false) g = PSO.minimize env R srt fuel c g ∧
    NA.minimizeVal env R srt fuel d (fun _ => false) g = NA.minimize env R srt fuel d g := by
  have key : ∀ {p n : Nat} (b : Option String) (X : Pop K p n), 0 < p → intValues b (fun _ => false) X = false := by
    intro p n b X hp
    have : ¬ ∀ _ : Fin p, False := fun h => h ⟨0, hp⟩
    simp [intValues, this]
  refine ⟨DE.minimizeVal_eq he fun fn _ X x => by rw [key _ _ e]; rfl,
    CPSO.minimizeVal_eq he (fun fn _ X x => by rw [key _ _ e']; rfl) (Or.inl fun X => key _ _ e'),
    CPSO.minimizeVal_eq (a := c.toCPSO) he (fun fn _ X x => congrArg (fun b => storeVal b (fn x)) (key (n := c.toCPSO.ndim) c.toCPSO.backend X e''))
      (Or.inr (Or.inl rfl)),
    NA.minimizeVal_eq he fun fn _ X x => by rw [key _ _ e3]; rfl⟩

/-- With MPI the values are collected in an array of floats. -/
theorem C92_mpi [NumFns K] (he : env.Ok) {a : DE.Args K} {b : CPSO.Args K} {c : PSO.Args K} {d : NA.Args K}
    (ha : a.backend = some "mpi") (hb : b.backend = some "mpi") (hc : c.backend = some "mpi") (hd : d.backend = some "mpi")
    (ia : Vec K a.ndim → Bool) (ib : Vec K b.ndim → Bool) (ic : Vec K c.ndim → Bool) (id' : Vec K d.ndim → Bool) :
    DE.minimizeVal env R fuel a ia g = DE.minimize env R fuel a g ∧
    CPSO.minimizeVal env R srt fuel big b ib g = CPSO.minimize env R srt fuel b g ∧
    PSO.minimizeVal env R srt fuel c ic g = PSO.minimize env R srt fuel c g ∧
    NA.minimizeVal env R srt fuel d id' g = NA.minimize env R srt fuel d g := by
  have key : ∀ {p n : Nat} {b : Option String}, b = some "mpi" → ∀ (i : Vec K n → Bool) (X : Pop K p n), intValues b i X = false := by
    rintro p n b rfl i X; simp [intValues]
  refine ⟨DE.minimizeVal_eq he fun fn _ X x => by rw [key ha]; rfl,
    CPSO.minimizeVal_eq he (fun fn _ X x => by rw [key hb]; rfl) (Or.inl fun X => key hb _ _),
    CPSO.minimizeVal_eq (a := c.toCPSO) he (fun fn _ X x => congrArg (fun b => storeVal b (fn x)) (key (b := c.toCPSO.backend) hc ic X))
      (Or.inr (Or.inl rfl)),
    NA.minimizeVal_eq he fun fn _ X x => by rw [key hd]; rfl⟩

/-- An objective all of whose values are integers: whatever types they come in, `de` gives what it gives for floats. -/
theorem C92_de_ints (he : env.Ok) (hK : IntsRoundTrip K) {a : DE.Args K} {fn : Vec K a.ndim → Val K} (hfn : a.fn = some fn)
    (h : ∀ x, ∃ z : Int, fn x = .fin (z : K)) (isInt : Vec K a.ndim → Bool) :
    TypeIrrelevant (DE.minimize env R fuel a g) (DE.minimizeVal env R fuel a isInt g) := by
  rw [DE.minimizeVal_eq he fun fn' hfn' X x => by rw [hfn] at hfn'; cases hfn'; exact storeVal_ints hK h _ x]
  exact fun o h => h

/-- Without restarts `cpso` gives what it gives for floats.  Missing: restarts, where it fails. -/
theorem C92_cpso_ints_partial [NumFns K] (he : env.Ok) (hK : IntsRoundTrip K) {a : CPSO.Args K} {fn : Vec K a.ndim → Val K} (hfn : a.fn = some fn)
    (h : ∀ x, ∃ z : Int, fn x = .fin (z : K)) (hγ : a.competitivity = none ∨ a.competitivity = some 0) (isInt : Vec K a.ndim → Bool) :
    TypeIrrelevant (CPSO.minimize env R srt fuel a g) (CPSO.minimizeVal env R srt fuel big a isInt g) := by
  rw [CPSO.minimizeVal_eq he (fun fn' hfn' X x => by rw [hfn] at hfn'; cases hfn'; exact storeVal_ints hK h _ x) (Or.inr hγ)]
  exact fun o h => h

theorem C92_pso_ints [NumFns K] (he : env.Ok) (hK : IntsRoundTrip K) {a : PSO.Args K} {fn : Vec K a.ndim → Val K} (hfn : a.fn = some fn)
    (h : ∀ x, ∃ z : Int, fn x = .fin (z : K)) (isInt : Vec K a.ndim → Bool) :
    TypeIrrelevant (PSO.minimize env R srt fuel a g) (PSO.minimizeVal env R srt fuel a isInt g) :=
  C92_cpso_ints_partial (a := a.toCPSO) he hK hfn h (Or.inl rfl) isInt

theorem C92_na_ints (he : env.Ok) (hK : IntsRoundTrip K) {a : NA.Args K} {fn : Vec K a.ndim → Val K} (hfn : a.fn = some fn)
    (h : ∀ x, ∃ z : Int, fn x = .fin (z : K)) (isInt : Vec K a.ndim → Bool) :
    TypeIrrelevant (NA.minimize env R srt fuel a g) (NA.minimizeVal env R srt fuel a isInt g) := by
  rw [NA.minimizeVal_eq he fun fn' hfn' X x => by rw [hfn] at hfn'; cases hfn'; exact storeVal_ints hK h _ x]
  exact fun o h => h

/-! ## What holds for every objective -/

/-- Immediate updating: the value belongs to the solution, for every mixture of integers and floats. -/
theorem C92_de_immediate_partial (he : env.Ok) {a : DE.Args K} {fn : Vec K a.ndim → Val K} (hfn : a.fn = some fn)
    (hs : ¬ Deferred a.updating a.workers a.backend) {isInt : Vec K a.ndim → Bool} {o : Output σ K a.p a.ndim}
    (h : DE.minimizeVal env R fuel a isInt g = .ok o) : ReportsEvaluatedPoint fn o := by
  obtain ⟨fn', P, s0, r, L, hfn', hobj, hinit, hrun, rfl⟩ := DE.minimizeVal_ok he h
  rw [hfn] at hfn'; cases hfn'
  have hsync : a.sync = false := by
    by_contra hc
    exact hs (sync_iff.1 (Bool.not_eq_false _ ▸ hc : a.sync = true))
  rw [hsync] at hrun
  obtain ⟨l, st, msg, hH, -, -, -, rfl⟩ := run_hist hrun
  obtain ⟨i, -, rfl⟩ := DE.init_ok hinit
  exact hH.inv (fun s => s.gfit = fn s.gbest ∧ s.gbest ∈ s.evals) ⟨hobj.pop _ _, by simp⟩
    (fun _ _ _ _ _ hI hs => DE.stepAsyncVal_best hobj hI hs) (fun _ _ _ h => h) L.s (by simp)

theorem C92_cpso_immediate_partial [NumFns K] (he : env.Ok) {a : CPSO.Args K} {fn : Vec K a.ndim → Val K} (hfn : a.fn = some fn)
    (hs : ¬ Deferred a.updating a.workers a.backend) {isInt : Vec K a.ndim → Bool} {o : Output σ K a.p a.ndim}
    (h : CPSO.minimizeVal env R srt fuel big a isInt g = .ok o) : ReportsEvaluatedPoint fn o := by
  obtain ⟨fn', P, s0, reset, r, L, hfn', hobj, -, hinit, hrun, rfl⟩ := CPSO.minimizeVal_ok he h
  rw [hfn] at hfn'; cases hfn'
  have hsync : a.sync = false := by
    by_contra hc
    exact hs (sync_iff.1 (Bool.not_eq_false _ ▸ hc : a.sync = true))
  rw [hsync] at hrun
  obtain ⟨l, st, msg, hH, -, -, -, rfl⟩ := run_hist hrun
  obtain ⟨i, -, rfl⟩ := CPSO.init_ok hinit
  refine hH.inv (fun s => s.gfit = fn s.gbest ∧ s.gbest ∈ s.evals) ⟨hobj.pop _ _, by simp⟩
    (fun _ _ _ _ _ hI hs => CPSO.stepAsyncVal_best hobj hI hs) (fun it s _ h => ?_) L.s (by simp)
  obtain ⟨h1, h2, h3⟩ := CPSO.postVal_same (P := P) (reset := reset) it s
  show (CPSO.postVal reset P it s).gfit = fn (CPSO.postVal reset P it s).gbest ∧ (CPSO.postVal reset P it s).gbest ∈ (CPSO.postVal reset P it s).evals
  rw [h1, h2, h3]
  exact h

theorem C92_pso_immediate_partial [NumFns K] (he : env.Ok) {a : PSO.Args K} {fn : Vec K a.ndim → Val K} (hfn : a.fn = some fn)
    (hs : ¬ Deferred a.updating a.workers a.backend) {isInt : Vec K a.ndim → Bool} {o : Output σ K a.p a.ndim}
    (h : PSO.minimizeVal env R srt fuel a isInt g = .ok o) : ReportsEvaluatedPoint fn o :=
  C92_cpso_immediate_partial (a := a.toCPSO) he hfn hs h

theorem integerPartOf_of_store {v w : Val K} {b : Bool} (hw : ∃ k, w = .fin k) (h : v = w ∨ v = storeVal b w) : v = w ∨ IntegerPartOf v w := by
  obtain ⟨k, rfl⟩ := hw
  rcases h with h | h
  · exact Or.inl h
  · cases b with
    | false => exact Or.inl h
    | true => exact Or.inr ⟨k, rfl, h⟩

/-- Deferred updating: the solution was evaluated and the reported value is its value or the integer part of it.  Missing: that
it is its value, which fails. -/
theorem C92_de_deferred_partial (he : env.Ok) {a : DE.Args K} {fn : Vec K a.ndim → Val K} (hfn : a.fn = some fn)
    (hfin : ∀ x, ∃ k, fn x = .fin k) (hs : Deferred a.updating a.workers a.backend) {isInt : Vec K a.ndim → Bool} {o : Output σ K a.p a.ndim}
    (h : DE.minimizeVal env R fuel a isInt g = .ok o) :
    o.res.x ∈ o.evals ∧ (o.res.fval = fn o.res.x ∨ IntegerPartOf o.res.fval (fn o.res.x)) := by
  obtain ⟨fn', P, s0, r, L, hfn', hobj, hinit, hrun, rfl⟩ := DE.minimizeVal_ok he h
  rw [hfn] at hfn'; cases hfn'
  have hsync : a.sync = true := sync_iff.2 hs
  rw [hsync] at hrun
  obtain ⟨l, st, msg, hH, -, -, -, rfl⟩ := run_hist hrun
  obtain ⟨i, -, rfl⟩ := DE.init_ok hinit
  obtain ⟨-, h1, h2⟩ := hH.inv _
    ⟨fun i => ⟨List.mem_ofFn.2 ⟨i, rfl⟩, Or.inl (hobj.pop _ _)⟩, List.mem_ofFn.2 ⟨i, rfl⟩, Or.inl (hobj.pop _ _)⟩
    (fun _ _ _ _ _ hI hs => DE.stepSyncVal_near hobj hI hs) (fun _ _ _ h => h) L.s (by simp)
  exact ⟨h1, integerPartOf_of_store (hfin _) h2⟩

theorem C92_cpso_deferred_partial [NumFns K] (he : env.Ok) {a : CPSO.Args K} {fn : Vec K a.ndim → Val K} (hfn : a.fn = some fn)
    (hfin : ∀ x, ∃ k, fn x = .fin k) (hs : Deferred a.updating a.workers a.backend)
    (hγ : a.competitivity = none ∨ a.competitivity = some 0) {isInt : Vec K a.ndim → Bool} {o : Output σ K a.p a.ndim}
    (h : CPSO.minimizeVal env R srt fuel big a isInt g = .ok o) :
    o.res.x ∈ o.evals ∧ (o.res.fval = fn o.res.x ∨ IntegerPartOf o.res.fval (fn o.res.x)) := by
  obtain ⟨fn', P, s0, reset, r, L, hfn', hobj, hg, hinit, hrun, rfl⟩ := CPSO.minimizeVal_ok he h
  rw [hfn] at hfn'; cases hfn'
  have hsync : a.sync = true := sync_iff.2 hs
  rw [hsync] at hrun
  generalize intValues a.backend isInt s0.X = b at hrun
  obtain ⟨l, st, msg, hH, -, -, -, rfl⟩ := run_hist hrun
  obtain ⟨i, -, rfl⟩ := CPSO.init_ok hinit
  obtain ⟨-, h1, h2⟩ := hH.inv (fun s => (∀ i, s.pbest i ∈ s.evals ∧ (s.pbestfit i = fn (s.pbest i) ∨ s.pbestfit i = storeVal b (fn (s.pbest i)))) ∧
      s.gbest ∈ s.evals ∧ (s.gfit = fn s.gbest ∨ s.gfit = storeVal b (fn s.gbest)))
    ⟨fun i => ⟨List.mem_ofFn.2 ⟨i, rfl⟩, Or.inl (hobj.pop _ _)⟩, List.mem_ofFn.2 ⟨i, rfl⟩, Or.inl (hobj.pop _ _)⟩
    (fun _ _ _ _ _ hI hs => CPSO.stepSyncVal_near hobj hI hs) (fun it s _ h => by
      have : (CPSO.algVal (storeVal b) reset P true).post it s = s := by
        show CPSO.postVal _ P it s = s
        unfold CPSO.postVal
        rw [hg]
        rcases hγ with hγ | hγ <;> simp [hγ]
      rw [this]
      exact h) L.s (by simp)
  exact ⟨h1, integerPartOf_of_store (hfin _) h2⟩

theorem C92_pso_deferred_partial [NumFns K] (he : env.Ok) {a : PSO.Args K} {fn : Vec K a.ndim → Val K} (hfn : a.fn = some fn)
    (hfin : ∀ x, ∃ k, fn x = .fin k) (hs : Deferred a.updating a.workers a.backend)
    {isInt : Vec K a.ndim → Bool} {o : Output σ K a.p a.ndim} (h : PSO.minimizeVal env R srt fuel a isInt g = .ok o) :
    o.res.x ∈ o.evals ∧ (o.res.fval = fn o.res.x ∨ IntegerPartOf o.res.fval (fn o.res.x)) :=
  C92_cpso_deferred_partial (a := a.toCPSO) he hfn hfin hs (Or.inl rfl) h

theorem C92_na_deferred_partial (he : env.Ok) {a : NA.Args K} {fn : Vec K a.ndim → Val K} (hfn : a.fn = some fn)
    (hfin : ∀ x, ∃ k, fn x = .fin k) {isInt : Vec K a.ndim → Bool} {o : Output σ K a.p a.ndim}
    (h : NA.minimizeVal env R srt fuel a isInt g = .ok o) :
    o.res.x ∈ o.evals ∧ (o.res.fval = fn o.res.x ∨ IntegerPartOf o.res.fval (fn o.res.x)) := by
  obtain ⟨fn', P, s0, r, L, hfn', hobj, hinit, hrun, rfl⟩ := NA.minimizeVal_ok he h
  rw [hfn] at hfn'; cases hfn'
  obtain ⟨l, st, msg, hH, -, -, -, rfl⟩ := run_hist hrun
  obtain ⟨i, -, rfl⟩ := NA.init_ok hinit
  obtain ⟨-, h1, h2⟩ := hH.inv _
    ⟨fun i => ⟨List.mem_ofFn.2 ⟨i, rfl⟩, Or.inl (hobj.pop _ _)⟩, List.mem_ofFn.2 ⟨i, rfl⟩, Or.inl (hobj.pop _ _)⟩
    (fun _ _ _ _ _ hI hs => NA.stepVal_near hobj hI hs) (fun _ _ _ h => h) L.s (by simp)
  exact ⟨h1, integerPartOf_of_store (hfin _) h2⟩

/-! ## `cmaes` and `vdcma` -/

section
variable [NumFns K] {eigh : CMAES.Eigh K} {a : Evo.Args K} {isInt : Vec K a.ndim → Bool} {junk : Vec K a.ndim}

/-- Without constraints the types do not matter; with `Penalize` a run that returns gives what it gives for floats. -/
theorem C92_cmaes_partial (he : env.Ok) :
    (a.constraints = none → TypeIrrelevant (CMAES.minimize env R srt eigh fuel a junk g) (CMAES.minimizeVal env R srt eigh fuel a isInt junk g)) ∧
    TypeIrrelevant (CMAES.minimizeVal env R srt eigh fuel a isInt junk g) (CMAES.minimize env R srt eigh fuel a junk g) :=
  ⟨fun hc => by rw [CMAES.minimizeVal_eq he hc]; exact fun o h => h, fun _ => CMAES.minimizeVal_sound he⟩

theorem C92_vdcma_partial (he : env.Ok) :
    (a.constraints = none → TypeIrrelevant (VDCMA.minimize env R srt fuel a junk g) (VDCMA.minimizeVal env R srt fuel a isInt junk g)) ∧
    TypeIrrelevant (VDCMA.minimizeVal env R srt fuel a isInt junk g) (VDCMA.minimize env R srt fuel a junk g) :=
  ⟨fun hc => by rw [VDCMA.minimizeVal_eq he hc]; exact fun o h => h, fun _ => VDCMA.minimizeVal_sound he⟩

/-- With `Penalize` no run returns if the objective always returns integers (except with MPI). -/
theorem C92_penalize_raises (he : env.Ok) (hc : a.constraints = some "Penalize") (hb : a.backend ≠ some "mpi") :
    (∀ o, CMAES.minimizeVal env R srt eigh fuel a (fun _ => true) junk g ≠ .ok o) ∧
    ∀ o, VDCMA.minimizeVal env R srt fuel a (fun _ => true) junk g ≠ .ok o := by
  have key : ∀ X : Pop K a.p a.ndim, intValues a.backend (fun _ => true) X ≠ false := by
    intro X h
    simp [intValues, hb] at h
  exact ⟨fun o h => (CMAES.minimizeVal_ints he hc h).elim key, fun o h => (VDCMA.minimizeVal_ints he hc h).elim key⟩

end

/-! ## Witnesses -/

/-- An objective with a penalty: `100` (a Python integer) where the first coordinate exceeds `3/5`. -/
def mixed (x : Vec ℚ 2) : Val ℚ := if 3 / 5 < x 0 then .fin 100 else sphere2 x
def mixedInt (x : Vec ℚ 2) : Bool := decide (3 / 5 < x 0)

/-- An initial population all of which is penalised. -/
def farX0 : NdArr ℚ :=
  { shape := [5, 2], get := fun l =>
      if l.getD 1 0 = 0 then 1 - (4 - l.getD 0 0 : ℚ) * 39 / 400 else (l.getD 0 0 : ℚ) / 4 - 1 / 2 }

def mixedCommon : CommonArgs ℚ := { common with x0 := some farX0, fn := some mixed }
def deMixedArgs (u : String) : DE.Args ℚ := { deArgs with toCommonArgs := mixedCommon, updating := u, mutation := 1, recombination := 1 }
def psoMixedArgs (u : String) : PSO.Args ℚ := { psoArgs with toCommonArgs := mixedCommon, updating := u }
def naMixedArgs : NA.Args ℚ := { naArgs with toCommonArgs := mixedCommon }

theorem mixed_ints : ReturnsInts mixed mixedInt := by
  intro x h
  have : 3 / 5 < x 0 := of_decide_eq_true h
  exact ⟨100, by simp [mixed, this]⟩

theorem mixed_fin (x : Vec ℚ 2) : ∃ k, mixed x = .fin k := by
  unfold mixed
  split_ifs
  · exact ⟨_, rfl⟩
  · exact ⟨_, rfl⟩

/-- Do both runs return, with different histories of values? -/
def historiesDiffer {p n : Nat} (r r' : Except PyErr (Output Nat ℚ p n)) : Bool :=
  match r, r' with
  | .ok o, .ok o' => decide (o.res.funall ≠ o'.res.funall)
  | _, _ => false

theorem not_irrelevant_hist {p n : Nat} {r r' : Except PyErr (Output Nat ℚ p n)} (h : historiesDiffer r r' = true) : ¬ TypeIrrelevant r r' := by
  intro ht
  cases r with
  | error e => simp [historiesDiffer] at h
  | ok o =>
    rw [ht o rfl] at h
    simp [historiesDiffer] at h

/-- One objective, the same values: the outcome depends on whether the penalty is written `100` or `100.0`. -/
theorem C92_types_violated :
    ReturnsInts mixed mixedInt ∧
    (∀ u, u = "deferred" ∨ u = "immediate" →
      ¬ TypeIrrelevant (DE.minimize Concrete.env rng 10 (deMixedArgs u) 0) (DE.minimizeVal Concrete.env rng 10 (deMixedArgs u) mixedInt 0) ∧
      ¬ TypeIrrelevant (PSO.minimize Concrete.env rng stableArgsort 10 (psoMixedArgs u) 0)
        (PSO.minimizeVal Concrete.env rng stableArgsort 10 (psoMixedArgs u) mixedInt 0)) ∧
    ¬ TypeIrrelevant (NA.minimize Concrete.env rng stableArgsort 10 naMixedArgs 0)
      (NA.minimizeVal Concrete.env rng stableArgsort 10 naMixedArgs mixedInt 0) := by
  refine ⟨mixed_ints, ?_, not_irrelevant_hist (by decide +kernel)⟩
  rintro u (rfl | rfl)
  · exact ⟨not_irrelevant_hist (by decide +kernel), not_irrelevant_hist (by decide +kernel)⟩
  · exact ⟨not_irrelevant_hist (by decide +kernel), not_irrelevant_hist (by decide +kernel)⟩

/-- Deferred updating: the reported value is not the value of the reported solution. -/
theorem C92_value_violated :
    (∃ o, DE.minimizeVal Concrete.env rng 10 (deMixedArgs "deferred") mixedInt 0 = .ok o ∧ o.res.fval ≠ mixed o.res.x) ∧
    (∃ o, PSO.minimizeVal Concrete.env rng stableArgsort 10 (psoMixedArgs "deferred") mixedInt 0 = .ok o ∧ o.res.fval ≠ mixed o.res.x) ∧
    ∃ o, NA.minimizeVal Concrete.env rng stableArgsort 10 naMixedArgs mixedInt 0 = .ok o ∧ o.res.fval ≠ mixed o.res.x := by
  refine ⟨?_, ?_, ?_⟩
  · obtain ⟨o, h, ht⟩ := returns_iff (r := DE.minimizeVal Concrete.env rng 10 (deMixedArgs "deferred") mixedInt 0)
      (t := fun o => decide (o.res.fval ≠ mixed o.res.x)) (by decide +kernel)
    exact ⟨o, h, of_decide_eq_true ht⟩
  · obtain ⟨o, h, ht⟩ := returns_iff (r := PSO.minimizeVal Concrete.env rng stableArgsort 10 (psoMixedArgs "deferred") mixedInt 0)
      (t := fun o => decide (o.res.fval ≠ mixed o.res.x)) (by decide +kernel)
    exact ⟨o, h, of_decide_eq_true ht⟩
  · obtain ⟨o, h, ht⟩ := returns_iff (r := NA.minimizeVal Concrete.env rng stableArgsort 10 naMixedArgs mixedInt 0)
      (t := fun o => decide (o.res.fval ≠ mixed o.res.x)) (by decide +kernel)
    exact ⟨o, h, of_decide_eq_true ht⟩

/-- An objective that returns integers everywhere. -/
def level (x : Vec ℚ 2) : Val ℚ := .fin ((⌊10 * (x 0 * x 0 + x 1 * x 1)⌋ : Int) : ℚ)

theorem level_ints (x : Vec ℚ 2) : ∃ z : Int, level x = .fin (z : ℚ) := ⟨_, rfl⟩

/-- A collapsed swarm for that objective. -/
def levelArgs : CPSO.Args ℚ := { collapsed with fn := some level, ftol := .fin (-5), updating := "deferred" }

/-- The marker `1.0e30` of a restart, in an array of integers, becomes the smallest integer: `cpso` reports it as the minimum although
no value is negative. -/
theorem C92_cpso_violated :
    ∃ o, CPSO.minimizeVal Concrete.env rng stableArgsort 10 (-2 ^ 63) levelArgs (fun _ => true) 0 = .ok o ∧
      o.res.fval = .fin (-2 ^ 63) ∧ ∀ x, .fin 0 ≤ level x := by
  obtain ⟨o, h, ht⟩ := returns_iff (r := CPSO.minimizeVal Concrete.env rng stableArgsort 10 (-2 ^ 63) levelArgs (fun _ => true) 0)
    (t := fun o => decide (o.res.fval = .fin (-2 ^ 63))) (by decide +kernel)
  refine ⟨o, h, of_decide_eq_true ht, fun x => ?_⟩
  have h0 : (0 : ℚ) ≤ 10 * (x 0 * x 0 + x 1 * x 1) := by
    have := mul_self_nonneg (x 0); have := mul_self_nonneg (x 1); linarith
  have h1 : (0 : ℤ) ≤ ⌊10 * (x 0 * x 0 + x 1 * x 1)⌋ := Int.floor_nonneg.2 h0
  exact Val.fin_le_fin.2 (by exact_mod_cast h1)

def evoLevelArgs : Evo.Args ℚ := { evoArgs with fn := some level, constraints := some "Penalize" }

/-- `Penalize`: runs that return for floats and raise for integers. -/
theorem C92_penalize_violated :
    ¬ TypeIrrelevant (CMAES.minimize Concrete.env rng stableArgsort eighDiag 10 evoLevelArgs junk0 0)
      (CMAES.minimizeVal Concrete.env rng stableArgsort eighDiag 10 evoLevelArgs (fun _ => true) junk0 0) ∧
    ¬ TypeIrrelevant (VDCMA.minimize Concrete.env rng stableArgsort 10 evoLevelArgs junk0 0)
      (VDCMA.minimizeVal Concrete.env rng stableArgsort 10 evoLevelArgs (fun _ => true) junk0 0) := by
  have key := C92_penalize_raises (R := rng) (srt := stableArgsort) (eigh := eighDiag) (fuel := 10) (a := evoLevelArgs) (junk := junk0) (g := 0)
    env_ok rfl (show (none : Option String) ≠ some "mpi" by simp)
  refine ⟨fun h => ?_, fun h => ?_⟩
  · obtain ⟨o, ho, -⟩ := returns_iff (r := CMAES.minimize Concrete.env rng stableArgsort eighDiag 10 evoLevelArgs junk0 0)
      (t := fun _ => true) (by decide +kernel)
    exact key.1 o (h o ho)
  · obtain ⟨o, ho, -⟩ := returns_iff (r := VDCMA.minimize Concrete.env rng stableArgsort 10 evoLevelArgs junk0 0)
      (t := fun _ => true) (by decide +kernel)
    exact key.2 o (h o ho)

/-- Runs to which the theorems above apply. -/
example : ∃ o, DE.minimizeVal Concrete.env rng 10 { deMixedArgs "immediate" with fn := some level } (fun _ => true) 0 = .ok o ∧
    ReportsEvaluatedPoint level o ∧ 3 ≤ o.cbs.length := by
  obtain ⟨o, h, ht⟩ := returns_iff (r := DE.minimize Concrete.env rng 10 { deMixedArgs "immediate" with fn := some level } 0)
    (t := fun o => decide (3 ≤ o.cbs.length)) (by decide +kernel)
  have := C92_de_ints (fn := level) env_ok intsRoundTrip_field (a := { deMixedArgs "immediate" with fn := some level }) rfl level_ints (fun _ => true) o h
  exact ⟨o, this, C92_de_immediate_partial (fn := level) env_ok rfl (by simp [Deferred, deMixedArgs, mixedCommon, common]) this, of_decide_eq_true ht⟩

example : ∃ o, NA.minimizeVal Concrete.env rng stableArgsort 10 naMixedArgs mixedInt 0 = .ok o ∧
    (o.res.fval = mixed o.res.x ∨ IntegerPartOf o.res.fval (mixed o.res.x)) := by
  obtain ⟨-, -, o, h, -⟩ := C92_value_violated
  exact ⟨o, h, (C92_na_deferred_partial (fn := mixed) env_ok rfl mixed_fin h).2⟩

end Stochopy
