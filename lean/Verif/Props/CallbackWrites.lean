import Verif.Lemmas.CallbackWrites
import Verif.Lemmas.SamplerWrites
import Verif.Lemmas.SamplerUnits
import Verif.Props.InPlace

/-!
# C110: callbacks that write into the array they are given

`minimizeC … wr` and `sampleC … wr` are calls whose `k`-th callback leaves `wr k X` in the array that held `X`
(`Model/CallbackWrites.lean`).

The claim "the reported value is the value of the reported point, whatever the callback writes" is true for `cpso` and `pso`
(`C110_cpso`, `C110_pso`): a callback may move the particles as it likes.  It is false for `de` with deferred updating, `mcmc` and
`hmc`: `C110_*_violated`.  There it remains true if the callback only moves points to points of the same value
(`C110_value_*_partial`: wrapping angles, relabelling exchangeable components); for `de` the reported value is the least of the run
whatever the callback writes (`C110_best_de_partial`), and with immediate updating it belongs to the reported point
(`C110_point_de_partial`).  Writes that leave what was shown as it is change nothing (`C110_same_*`).
-/

set_option linter.unusedSectionVars false

namespace Stochopy
open Spec Concrete

section optimizers
variable {K σ : Type} [AddZeroClass K] [One K] [Sub K] [Mul K] [Div K] [Neg K] [NatCast K] [IntCast K] [Pow K ℕ] [ArrayOps K] [LinearOrder K] [IntParts K]
variable {env : Env} {R : Rng σ K} {srt : Argsort K} {fuel : Nat} {g : σ}

/-! ## Writes that leave what was shown as it is -/

theorem C110_same_de {a : DE.Args K} {wr : Nat → Pop K a.p a.ndim → Pop K a.p a.ndim} {o : Output σ K a.p a.ndim}
    (h : DE.minimize env R fuel a g = .ok o) (hw : LeavesShown wr o) : DE.minimizeC env R fuel a wr g = .ok o :=
  DE.minimizeC_same h hw

theorem C110_same_cpso [NumFns K] {a : CPSO.Args K} {wr : Nat → Pop K a.p a.ndim → Pop K a.p a.ndim} {o : Output σ K a.p a.ndim}
    (h : CPSO.minimize env R srt fuel a g = .ok o) (hw : LeavesShown wr o) : CPSO.minimizeC env R srt fuel a wr g = .ok o :=
  CPSO.minimizeC_same h hw

theorem C110_same_pso [NumFns K] {a : PSO.Args K} {wr : Nat → Pop K a.p a.ndim → Pop K a.p a.ndim} {o : Output σ K a.p a.ndim}
    (h : PSO.minimize env R srt fuel a g = .ok o) (hw : LeavesShown wr o) : PSO.minimizeC env R srt fuel a wr g = .ok o :=
  CPSO.minimizeC_same (a := a.toCPSO) h hw

/-! ## cpso and pso: the personal bests are arrays of their own -/

/-- As in C01, some initial value must be below `1e30` (the value written into restarted particles), unless restarts are switched
off. -/
theorem C110_cpso [NumFns K] (he : env.Ok) (hsrt : IsArgsort srt) {a : CPSO.Args K} [CPSO.FewRestarts K a.p]
    {wr : Nat → Pop K a.p a.ndim → Pop K a.p a.ndim} {fn : Vec K a.ndim → Val K} (hfn : a.fn = some fn) {o : Output σ K a.p a.ndim}
    (h : CPSO.minimizeC env R srt fuel a wr g = .ok o)
    (hlow : a.competitivity = none ∨ a.competitivity = some 0 ∨ ∃ x ∈ o.evals.take a.p, fn x < .fin (10 ^ 30)) :
    ReportsEvaluatedPoint fn o ∧ ((∀ x ∈ o.evals.take a.p, fn x ≠ .nan) → BestOfRun fn o) ∧ BestNeverWorsens o ∧ CountsExact o := by
  obtain ⟨fn', P, s0, r, L, w, hfn', hv, hobj, rfl, hgam, hinit, hw, hrun, rfl⟩ := CPSO.minimizeC_ok he h
  obtain rfl : fn = fn' := by rw [hfn] at hfn'; exact Option.some.inj hfn'
  have hk := CPSO.keeps hw
  have hp : 0 < a.p := by have := (CPSO.validate_ok hv).2.2.2.1; show 0 < a.popsize.toNat; omega
  have hl := (CPSO.laws (P := P) (p := a.p) a.sync).writing (w := w) hk.gbest hk.gfit hk.evals
  have hM := (CPSO.mono (P := P) (p := a.p) (sync := a.sync) hsrt hp hobj).writing (w := w)
    (fun k s hI => by unfold CPSO.IM at hI ⊢; rw [hk.pbestfit, hk.gfit]; exact hI) hk.gfit
  obtain ⟨i, hi, hs0⟩ := CPSO.init_ok hinit
  have hlen : s0.evals.length = a.p := by rw [hs0]; simp
  have hcount := run_countsExact (caller := fun s => (w L.it s).caller) (rng := CPSO.State.rng) hl hlen hrun
  have hnever := run_bestNeverWorsens (ev := CPSO.State.evals) (caller := fun s => (w L.it s).caller) (rng := CPSO.State.rng) hl hM
    (by rw [hs0]; exact init_invM hi) hrun
  obtain ⟨l, st, msg, hH, -, -, -, hr⟩ := run_hist hrun
  have htake : L.s.evals.take a.p = s0.evals := hl.ev_take hlen hH
  have h1 : CPSO.I1 P fn s0 := by
    have hlow' : a.competitivity = none ∨ a.competitivity = some 0 ∨ ∃ x ∈ s0.evals, fn x < .fin (10 ^ 30) := by
      rw [← htake]; exact hlow
    rw [hs0] at hlow' ⊢
    refine ⟨fun j => Or.inl ⟨hobj.pop _ _, by simp⟩, ?_, hobj.pop _ _, by simp⟩
    rintro ⟨gm, hgm, hgm0⟩
    rcases hlow' with h | h | ⟨x, hx, hlt⟩
    · rw [hgam, h] at hgm; simp at hgm
    · rw [hgam, h] at hgm; simp at hgm; exact absurd hgm.symm hgm0
    · obtain ⟨j, rfl⟩ := List.mem_ofFn.1 hx
      exact ⟨j, by dsimp only; rw [hobj.pop]; exact hlt⟩
  have hw1 : ∀ k s, CPSO.I1 P fn s → CPSO.I1 P fn (w k s) := by
    intro k s hI
    unfold CPSO.I1 at hI ⊢
    rw [hk.pbest, hk.pbestfit, hk.gbest, hk.gfit, hk.evals]
    exact hI
  refine ⟨?_, fun hnan => ?_, hnever, hcount⟩
  · have := (hH.inv_writing (CPSO.I1 P fn) h1 (fun _ _ _ _ hI hs => CPSO.I1_step hobj hI hs)
      (fun it _ hI => CPSO.I1_post hsrt hp it hI) hw1 L.s (by simp)).best
    rw [hr]; exact this
  · have h2 : CPSO.I2 fn s0 := by
      have hn : ∀ x ∈ s0.evals, fn x ≠ .nan := by rw [← htake]; exact hnan
      rw [hs0] at hn ⊢
      refine init_inv2 hi (fun j => hobj.pop _ _) (fun j => ?_) (fun y hy => ?_)
      · dsimp only; rw [hobj.pop]; exact hn _ (List.mem_ofFn.2 ⟨j, rfl⟩)
      · obtain ⟨j, rfl⟩ := List.mem_ofFn.1 hy; exact ⟨j, rfl⟩
    have := (hH.inv_writing (fun s => CPSO.I1 P fn s ∧ CPSO.I2 fn s) ⟨h1, h2⟩
      (fun _ _ _ _ hI hs => ⟨CPSO.I1_step hobj hI.1 hs, CPSO.I2_step hobj hI.2 hs⟩)
      (fun it _ hI => ⟨CPSO.I1_post hsrt hp it hI.1, CPSO.I2_post hsrt hp it hI.1 hI.2⟩)
      (fun k s hI => ⟨hw1 k s hI.1, by
        have := hI.2
        unfold CPSO.I2 at this ⊢
        rw [hk.pbestfit, hk.gfit, hk.evals]
        exact this⟩) L.s (by simp)).2
    intro x hx hn
    rw [hr]; exact this.all x hx hn

theorem C110_pso [NumFns K] (he : env.Ok) (hsrt : IsArgsort srt) {a : PSO.Args K} [CPSO.FewRestarts K a.toCPSO.p]
    {wr : Nat → Pop K a.p a.ndim → Pop K a.p a.ndim} {fn : Vec K a.ndim → Val K} (hfn : a.fn = some fn) {o : Output σ K a.p a.ndim}
    (h : PSO.minimizeC env R srt fuel a wr g = .ok o) :
    ReportsEvaluatedPoint fn o ∧ ((∀ x ∈ o.evals.take a.p, fn x ≠ .nan) → BestOfRun fn o) ∧ BestNeverWorsens o ∧ CountsExact o :=
  C110_cpso (a := a.toCPSO) he hsrt hfn h (Or.inl rfl)

/-! ## de -/

/-- The value that `de` reports. -/
theorem C110_best_de_partial (he : env.Ok) {a : DE.Args K} {wr : Nat → Pop K a.p a.ndim → Pop K a.p a.ndim}
    {fn : Vec K a.ndim → Val K} (hfn : a.fn = some fn) {o : Output σ K a.p a.ndim} (h : DE.minimizeC env R fuel a wr g = .ok o) :
    ((∀ x ∈ o.evals.take a.p, fn x ≠ .nan) → BestOfRun fn o) ∧ BestNeverWorsens o ∧ CountsExact o := by
  obtain ⟨fn', P, s0, r, L, w, hfn', hobj, hstr, hinit, hw, hrun, rfl⟩ := DE.minimizeC_ok he h
  obtain rfl : fn = fn' := by rw [hfn] at hfn'; exact Option.some.inj hfn'
  have hk := DE.keeps hw
  have hl := (DE.laws (P := P) a.sync hstr).writing (w := w) hk.gbest hk.gfit hk.evals
  have hM := (DE.mono (P := P) (sync := a.sync) hobj).writing (w := w)
    (fun k s hI => by unfold DE.IM at hI ⊢; rw [hk.pbestfit, hk.gfit]; exact hI) hk.gfit
  obtain ⟨i, hi, hs0⟩ := DE.init_ok hinit
  have hlen : s0.evals.length = a.p := by rw [hs0]; simp
  have hcount := run_countsExact (caller := fun s => (w L.it s).caller) (rng := DE.State.rng) hl hlen hrun
  have hnever := run_bestNeverWorsens (ev := DE.State.evals) (caller := fun s => (w L.it s).caller) (rng := DE.State.rng) hl hM
    (by rw [hs0]; exact init_invM hi) hrun
  obtain ⟨l, st, msg, hH, -, -, -, hr⟩ := run_hist hrun
  have htake : L.s.evals.take a.p = s0.evals := hl.ev_take hlen hH
  refine ⟨fun hnan => ?_, hnever, hcount⟩
  have h2 : DE.I2 fn s0 := by
    have hn : ∀ x ∈ s0.evals, fn x ≠ .nan := by rw [← htake]; exact hnan
    rw [hs0] at hn ⊢
    refine init_inv2 hi (fun j => hobj.pop _ _) (fun j => ?_) (fun y hy => ?_)
    · dsimp only; rw [hobj.pop]; exact hn _ (List.mem_ofFn.2 ⟨j, rfl⟩)
    · obtain ⟨j, rfl⟩ := List.mem_ofFn.1 hy; exact ⟨j, rfl⟩
  have := hH.inv_writing (DE.I2 fn) h2 (fun _ _ _ _ hI hs => DE.I2_step hobj hI hs) (fun _ _ h => h)
    (fun k s hI => by
      unfold DE.I2 at hI ⊢
      rw [hk.pbestfit, hk.gfit, hk.evals]
      exact hI) L.s (by simp)
  intro x hx hn
  rw [hr]; exact this.all x hx hn

/-- Immediate updating takes the best solution from the candidates, which no callback has seen. -/
theorem C110_point_de_partial (he : env.Ok) {a : DE.Args K} (ha : a.sync = false) {wr : Nat → Pop K a.p a.ndim → Pop K a.p a.ndim}
    {fn : Vec K a.ndim → Val K} (hfn : a.fn = some fn) {o : Output σ K a.p a.ndim} (h : DE.minimizeC env R fuel a wr g = .ok o) :
    ReportsEvaluatedPoint fn o := by
  obtain ⟨fn', P, s0, r, L, w, hfn', hobj, hstr, hinit, hw, hrun, rfl⟩ := DE.minimizeC_ok he h
  obtain rfl : fn = fn' := by rw [hfn] at hfn'; exact Option.some.inj hfn'
  have hk := DE.keeps hw
  rw [ha] at hrun
  obtain ⟨i, hi, hs0⟩ := DE.init_ok hinit
  obtain ⟨l, st, msg, hH, -, -, -, hr⟩ := run_hist hrun
  have := hH.inv_writing (DE.OwnBest fn) (by rw [hs0]; exact ⟨hobj.pop _ _, by simp⟩)
    (fun _ _ _ _ hI hs => DE.ownBest_step hobj hI hs) (fun _ _ h => h)
    (fun k s hI => by
      unfold DE.OwnBest at hI ⊢
      rw [hk.gfit, hk.gbest, hk.evals]
      exact hI) L.s (by simp)
  rw [hr]; exact this

/-- A callback that moves points to points of the same value. -/
theorem C110_value_de_partial (he : env.Ok) {a : DE.Args K} {wr : Nat → Pop K a.p a.ndim → Pop K a.p a.ndim}
    {fn : Vec K a.ndim → Val K} (hfn : a.fn = some fn) (hv : ∀ k X i, fn (wr k X i) = fn (X i)) {o : Output σ K a.p a.ndim}
    (h : DE.minimizeC env R fuel a wr g = .ok o) : o.res.fval = fn o.res.x := by
  obtain ⟨fn', P, s0, r, L, w, hfn', hobj, hstr, hinit, hw, hrun, rfl⟩ := DE.minimizeC_ok he h
  obtain rfl : fn = fn' := by rw [hfn] at hfn'; exact Option.some.inj hfn'
  obtain ⟨i, hi, hs0⟩ := DE.init_ok hinit
  obtain ⟨l, st, msg, hH, -, -, -, hr⟩ := run_hist hrun
  have := (hH.inv_writing (DE.IV fn)
    (by rw [hs0]; exact ⟨fun j => Or.inl ⟨hobj.pop _ _, trivial⟩, False.elim, hobj.pop _ _, trivial⟩)
    (fun _ _ _ _ hI hs => DE.IV_step hobj hI hs) (fun _ _ h => h)
    (fun k s hI => by
      rcases hw with rfl | rfl
      · refine ⟨fun j => ?_, False.elim, hI.best⟩
        rcases hI.fits j with ⟨h1, _⟩ | ⟨h1, _⟩
        · exact Or.inl ⟨h1.trans (hv k s.X j).symm, trivial⟩
        · exact h1.elim
      · exact hI) L.s (by simp)).best.1
  rw [hr]; exact this

end optimizers

/-! ## Samplers -/

section samplers
open Sampling
variable {K σ : Type} [Zero K] [One K] [Add K] [Sub K] [Mul K] [Div K] [Neg K] [NatCast K] [IntCast K] [Pow K ℕ] [ArrayOps K] [LinearOrder K] [NumFns K]
variable {R : Rng σ K} {fuel : Nat} {g : σ}

theorem C110_same_mcmc [IntParts K] {a : MCMC.Args K} {wr : Nat → Vec (Val K) a.ndim → Vec (Val K) a.ndim}
    {o : Sampling.Output σ K a.ndim} (h : (MCMC.sample R fuel a g).1 = .ok o) (hw : LeavesSamples wr o) :
    MCMC.sampleC R fuel a wr g = MCMC.sample R fuel a g :=
  MCMC.sampleC_same h hw

theorem C110_same_hmc {a : HMC.Args K} {wr : Nat → Vec (Val K) a.ndim → Vec (Val K) a.ndim} {o : Sampling.Output σ K a.ndim}
    (h : (HMC.sample R a g).1 = .ok o) (hw : LeavesSamples wr o) : HMC.sampleC R a wr g = HMC.sample R a g :=
  HMC.sampleC_same h hw

theorem C110_value_mcmc_partial [IntParts K] {a : MCMC.Args K} {wr : Nat → Vec (Val K) a.ndim → Vec (Val K) a.ndim}
    {fn : Vec (Val K) a.ndim → Val K} (hfn : a.fn = some fn) (hv : ∀ k x, fn (wr k x) = fn x) {o : Sampling.Output σ K a.ndim}
    (h : (MCMC.sampleC R fuel a wr g).1 = .ok o) : SamplesPaired fn o := by
  obtain ⟨s, hI, rfl⟩ := MCMC.sampleC_paired hfn hv h
  refine ⟨fun xs fs hx hf => ?_, ?_⟩
  · obtain rfl := attach_some hx
    obtain rfl := attach_some hf
    exact hI.vals
  · rcases hI.best with h | ⟨_, h⟩
    · exact Or.inl h
    · exact Or.inr h.symm

theorem C110_value_hmc_partial {a : HMC.Args K} {wr : Nat → Vec (Val K) a.ndim → Vec (Val K) a.ndim}
    {fn : Vec (Val K) a.ndim → Val K} (hfn : a.fn = some fn) (hv : ∀ k x, fn (wr k x) = fn x) {o : Sampling.Output σ K a.ndim}
    (h : (HMC.sampleC R a wr g).1 = .ok o) : SamplesPaired fn o ∧ o.fval = fn o.x := by
  obtain ⟨s, hI, hfin⟩ := HMC.sampleC_paired hfn hv h
  obtain ⟨i, h1, h2, h3, h4, h5⟩ := HMC.finish_ok hfin
  have hb : o.fval = fn o.x := by
    rw [h1, h2]
    have hlen : s.fs.length = s.xs.length := (congrArg List.length hI.vals).trans (List.length_map ..)
    have hi : i.val < s.xs.length := hlen ▸ i.isLt
    rw [List.getD_eq_getElem?_getD, List.getElem?_eq_getElem hi]
    have : s.fs[i.val]? = (s.xs.map fn)[i.val]? := congrArg (fun l : List (Val K) => l[i.val]?) hI.vals
    rw [List.getElem?_eq_getElem i.isLt, List.getElem?_map, List.getElem?_eq_getElem hi] at this
    exact Option.some.inj this
  refine ⟨⟨fun xs fs hx hf => ?_, Or.inr hb⟩, hb⟩
  rw [h4] at hx; rw [h5] at hf
  obtain rfl := attach_some hx
  obtain rfl := attach_some hf
  exact hI.vals

end samplers

/-! ## Runs -/

namespace Concrete

/-- `def callback(X, state): X += 1`. -/
def raise5 (_ : Nat) (X : Pop ℚ 5 2) : Pop ℚ 5 2 := fun i j => X i j + 1

/-- `de` with deferred updating. -/
def deDeferred : DE.Args ℚ := { deArgs with updating := "deferred" }

/-- `def callback(x, state): x += 1`. -/
def raise1 (_ : Nat) (x : Vec (Val ℚ) 2) : Vec (Val ℚ) 2 := fun j => x j + .fin 1

def mcmcCb : MCMC.Args ℚ := { mcmcArgs with callback := some true }

def hmcCb : HMC.Args ℚ := { hmcArgs with callback := some true }

end Concrete

/-- The same call reports a wrong value if the callback writes into the population. -/
theorem C110_de_violated : (∃ o, DE.minimize Concrete.env rng 10 deDeferred 0 = .ok o ∧ o.res.fval = sphere2 o.res.x) ∧
    ∃ o, DE.minimizeC Concrete.env rng 10 deDeferred raise5 0 = .ok o ∧ o.res.fval ≠ sphere2 o.res.x := by
  obtain ⟨o, h, ho⟩ := returns_iff (r := DE.minimize Concrete.env rng 10 deDeferred 0) (t := fun o => !wrongPair o) (by decide +kernel)
  obtain ⟨o', h', ho'⟩ := returns_iff (r := DE.minimizeC Concrete.env rng 10 deDeferred raise5 0) (t := wrongPair) (by decide +kernel)
  exact ⟨⟨o, h, by simpa [wrongPair] using ho⟩, o', h', by simpa [wrongPair] using ho'⟩

/-- Recorded samples with the values of other points. -/
theorem C110_mcmc_violated : (∃ o, (MCMC.sample rng 10 mcmcCb 0).1 = .ok o ∧ wrongSample o = false) ∧
    ∃ o, (MCMC.sampleC rng 10 mcmcCb raise1 0).1 = .ok o ∧ wrongSample o = true := by
  obtain ⟨o, h, ho⟩ := returns_iff (r := (MCMC.sample rng 10 mcmcCb 0).1) (t := fun o => !wrongSample o) (by decide +kernel)
  exact ⟨⟨o, h, by simpa using ho⟩, returns_iff (by decide +kernel)⟩

theorem C110_hmc_violated : (∃ o, (HMC.sample rng hmcCb 0).1 = .ok o ∧ wrongSample o = false) ∧
    ∃ o, (HMC.sampleC rng hmcCb raise1 0).1 = .ok o ∧ wrongSample o = true := by
  obtain ⟨o, h, ho⟩ := returns_iff (r := (HMC.sample rng hmcCb 0).1) (t := fun o => !wrongSample o) (by decide +kernel)
  exact ⟨⟨o, h, by simpa using ho⟩, returns_iff (by decide +kernel)⟩

namespace Concrete

/-- Particles moved by the callback: the run differs, the report is right. -/
example : ∃ o o', PSO.minimize Concrete.env rng stableArgsort 10 psoArgs 0 = .ok o ∧
    PSO.minimizeC Concrete.env rng stableArgsort 10 psoArgs raise5 0 = .ok o' ∧ o.evals.length = 15 ∧ o'.evals.length = 15 ∧
    ReportsEvaluatedPoint sphere2 o' ∧ BestOfRun sphere2 o' := by
  obtain ⟨o, h, ho⟩ := returns_iff (r := PSO.minimize Concrete.env rng stableArgsort 10 psoArgs 0)
    (t := fun o => decide (o.evals.length = 15)) (by decide +kernel)
  obtain ⟨o', h', ho'⟩ := returns_iff (r := PSO.minimizeC Concrete.env rng stableArgsort 10 psoArgs raise5 0)
    (t := fun o => decide (o.evals.length = 15)) (by decide +kernel)
  obtain ⟨h1, h2, _⟩ := C110_pso (fn := sphere2) env_ok isArgsort_stable rfl h'
  exact ⟨o, o', h, h', of_decide_eq_true ho, of_decide_eq_true ho', h1, h2 fun x _ => by simp [sphere2]⟩

example : ∃ o, CPSO.minimizeC Concrete.env rng stableArgsort 10 cpsoArgs raise5 0 = .ok o ∧ ReportsEvaluatedPoint sphere2 o := by
  obtain ⟨o, h, ho⟩ := returns_iff (r := CPSO.minimizeC Concrete.env rng stableArgsort 10 cpsoArgs raise5 0)
    (t := fun o => (o.evals.take 5).any fun x => decide (sphere2 x < .fin (10 ^ 30))) (by decide +kernel)
  simp only [List.any_eq_true, decide_eq_true_eq] at ho
  exact ⟨o, h, (C110_cpso (a := cpsoArgs) (fn := sphere2) env_ok isArgsort_stable rfl h (Or.inr (Or.inr ho))).1⟩

/-- The witness for deferred updating, with immediate updating. -/
example : ∃ o, DE.minimizeC Concrete.env rng 10 deArgs raise5 0 = .ok o ∧ ReportsEvaluatedPoint sphere2 o := by
  obtain ⟨o, h, _⟩ := returns_iff (r := DE.minimizeC Concrete.env rng 10 deArgs raise5 0) (t := fun _ => true) (by decide +kernel)
  exact ⟨o, h, C110_point_de_partial (fn := sphere2) env_ok (by decide) rfl h⟩

/-- The value of the witness is the least of its run. -/
example : ∃ o, DE.minimizeC Concrete.env rng 10 deDeferred raise5 0 = .ok o ∧ BestOfRun sphere2 o ∧ o.res.fval ≠ sphere2 o.res.x := by
  obtain ⟨_, o, h, ho⟩ := C110_de_violated
  exact ⟨o, h, (C110_best_de_partial (fn := sphere2) env_ok rfl h).1 fun x _ => by simp [sphere2], ho⟩

/-- Reflection at `c = (3/5, -1/2)`: `def callback(X, state): X[:] = 2 * c - X`. -/
def flip5 (_ : Nat) (X : Pop ℚ 5 2) : Pop ℚ 5 2 := fun i j => 2 * (if j = 0 then 3 / 5 else -1 / 2) - X i j

theorem sphere2_flip (x : Vec ℚ 2) : sphere2 (fun j => 2 * (if j = 0 then 3 / 5 else -1 / 2) - x j) = sphere2 x := by
  unfold sphere2
  congr 1
  simp only [if_true, Fin.isValue, one_ne_zero, if_false]
  ring

example : ∃ o, DE.minimizeC Concrete.env rng 10 deDeferred flip5 0 = .ok o ∧ o.res.fval = sphere2 o.res.x := by
  obtain ⟨o, h, _⟩ := returns_iff (r := DE.minimizeC Concrete.env rng 10 deDeferred flip5 0) (t := fun _ => true) (by decide +kernel)
  exact ⟨o, h, C110_value_de_partial (fn := sphere2) env_ok rfl (fun k X i => sphere2_flip (X i)) h⟩

/-- Exchange of two exchangeable components: `def callback(x, state): x[:] = x[::-1]`. -/
def swap1 (_ : Nat) (x : Vec (Val ℚ) 2) : Vec (Val ℚ) 2 := fun j => if j = 0 then x 1 else x 0

theorem bowl_swap (k : Nat) (x : Vec (Val ℚ) 2) : bowl (swap1 k x) = bowl x := by
  show x 1 * x 1 + x 0 * x 0 = x 0 * x 0 + x 1 * x 1
  exact Val.add_comm' _ _

example : ∃ o, (MCMC.sampleC rng 10 mcmcCb swap1 0).1 = .ok o ∧ mixed o = true ∧ SamplesPaired bowl o := by
  obtain ⟨o, h, ho⟩ := returns_iff (r := (MCMC.sampleC rng 10 mcmcCb swap1 0).1) (t := mixed) (by decide +kernel)
  exact ⟨o, h, ho, C110_value_mcmc_partial (a := mcmcCb) rfl bowl_swap h⟩

example : ∃ o, (HMC.sampleC rng hmcCb swap1 0).1 = .ok o ∧ 0 < o.acceptRatio ∧ SamplesPaired bowl o := by
  obtain ⟨o, h, ho⟩ := returns_iff (r := (HMC.sampleC rng hmcCb swap1 0).1) (t := fun o => decide (0 < o.acceptRatio)) (by decide +kernel)
  exact ⟨o, h, of_decide_eq_true ho, (C110_value_hmc_partial (a := hmcCb) rfl bowl_swap h).1⟩

def inside5 (b : CB ℚ 5 2) : Bool := decide (∀ i : Fin 5, ∀ j : Fin 2, clip2 (b.X i) j = b.X i j)

theorem inside5_iff {b : CB ℚ 5 2} (h : inside5 b = true) : (fun i => clip2 (b.X i)) = b.X :=
  funext fun i => funext fun j => of_decide_eq_true h i j

theorem kept_one {y : Vec (Val ℚ) 2} (h : kept y = true) : clip100 y = y := funext (of_decide_eq_true h)

/-- A callback that clips what it is shown to `[-1, 1]`, where it was anyway. -/
example : ∃ o, DE.minimizeC Concrete.env rng 10 deArgs (fun _ X i => clip2 (X i)) 0 = .ok o ∧ improves o = true := by
  obtain ⟨o, h, ho⟩ := returns_iff (r := DE.minimize Concrete.env rng 10 deArgs 0)
    (t := fun o => improves o && o.cbs.all inside5) (by decide +kernel)
  rw [Bool.and_eq_true] at ho
  exact ⟨o, C110_same_de (a := deArgs) h fun b hb => inside5_iff (List.all_eq_true.1 ho.2 b hb), ho.1⟩

example : ∃ o, PSO.minimizeC Concrete.env rng stableArgsort 10 psoArgs (fun _ X i => clip2 (X i)) 0 = .ok o ∧ improves o = true := by
  obtain ⟨o, h, ho⟩ := returns_iff (r := PSO.minimize Concrete.env rng stableArgsort 10 psoArgs 0)
    (t := fun o => improves o && o.cbs.all inside5) (by decide +kernel)
  rw [Bool.and_eq_true] at ho
  exact ⟨o, C110_same_pso (a := psoArgs) h fun b hb => inside5_iff (List.all_eq_true.1 ho.2 b hb), ho.1⟩

example : MCMC.sampleC rng 10 mcmcCb (fun _ => clip100) 0 = MCMC.sample rng 10 mcmcCb 0 := by
  obtain ⟨o, h, ho⟩ := returns_iff (r := (MCMC.sample rng 10 mcmcCb 0).1) (t := fun o => o.cbs.all fun b => kept b.xk) (by decide +kernel)
  exact C110_same_mcmc h fun b hb => kept_one (List.all_eq_true.1 ho b hb)

example : HMC.sampleC rng hmcCb (fun _ => clip100) 0 = HMC.sample rng hmcCb 0 := by
  obtain ⟨o, h, ho⟩ := returns_iff (r := (HMC.sample rng hmcCb 0).1) (t := fun o => o.cbs.all fun b => kept b.xk) (by decide +kernel)
  exact C110_same_hmc h fun b hb => kept_one (List.all_eq_true.1 ho b hb)

end Concrete

end Stochopy
