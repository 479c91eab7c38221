import Verif.Lemmas.InPlace
import Verif.Props.EvoRuns
import Verif.Props.Box
import Verif.Props.Chains

/-!
# C103: objectives that write into their argument

`minimizeW … wr` and `sampleW … wr` are calls with an objective that returns `fn x` and leaves `wr x` in the array it was called
with (`Model/InPlace.lean`).

The claim "what a call returns does not depend on `wr`" is true for `na`, which evaluates a temporary array, and false for `de`,
`cpso`, `pso`, `mcmc` and `hmc`: `C103_*_violated`.  What remains true there is in `C103_same_*_partial` (no difference if the
objective leaves the evaluated points as they are, e.g. because it clips points that are inside the bounds anyway),
`C103_point_*_partial` (the reported value was returned for the reported point or for one that the objective turned into it) and
`C103_best_*_partial` (and it is the smallest of the run).
-/

set_option linter.unusedSectionVars false

namespace Stochopy
open Spec Concrete

section optimizers
variable {K σ : Type} [AddZeroClass K] [One K] [Sub K] [Mul K] [Div K] [Neg K] [NatCast K] [IntCast K] [Pow K ℕ] [ArrayOps K] [LinearOrder K] [IntParts K]
variable {env : Env} {R : Rng σ K} {srt : Argsort K} {fuel : Nat} {g : σ}

/-! ## na: a temporary array -/

theorem C103_na {a : NA.Args K} (wr : Vec K a.ndim → Vec K a.ndim) : NA.minimizeW env R srt fuel a wr g = NA.minimize env R srt fuel a g := by
  unfold NA.minimizeW NA.minimize
  congr 1
  funext u
  cases a.fn with
  | none => rfl
  | some fn =>
    show optimizer _ _ _ _ _ (fun obj => _) = optimizer _ _ _ _ _ (fun obj => _)
    congr 1
    funext obj
    congr 1
    funext u
    exact NA.naW_eq _ _ _ _

/-! ## Objectives that leave the evaluated points as they are -/

/-- MPI (`backend="mpi"`) is not described for such objectives. -/
theorem C103_same_de_partial {a : DE.Args K} {wr : Vec K a.ndim → Vec K a.ndim} {o : Output σ K a.p a.ndim}
    (h : DE.minimize env R fuel a g = .ok o) (hw : LeavesAlone wr o.evals) (hb : a.backend ≠ some "mpi") :
    DE.minimizeW env R fuel a wr g = .ok o :=
  DE.minimizeW_agree h hw hb

theorem C103_same_cpso_partial [NumFns K] {a : CPSO.Args K} {wr : Vec K a.ndim → Vec K a.ndim} {o : Output σ K a.p a.ndim}
    (h : CPSO.minimize env R srt fuel a g = .ok o) (hw : LeavesAlone wr o.evals) (hb : a.backend ≠ some "mpi") :
    CPSO.minimizeW env R srt fuel a wr g = .ok o :=
  CPSO.minimizeW_agree h hw hb

theorem C103_same_pso_partial [NumFns K] {a : PSO.Args K} {wr : Vec K a.ndim → Vec K a.ndim} {o : Output σ K a.p a.ndim}
    (h : PSO.minimize env R srt fuel a g = .ok o) (hw : LeavesAlone wr o.evals) (hb : a.backend ≠ some "mpi") :
    PSO.minimizeW env R srt fuel a wr g = .ok o :=
  CPSO.minimizeW_agree (a := a.toCPSO) h hw hb

/-! ## The reported pair -/

theorem C103_point_de_partial (he : env.Ok) {a : DE.Args K} {wr : Vec K a.ndim → Vec K a.ndim} {fn : Vec K a.ndim → Val K}
    (hfn : a.fn = some fn) {o : Output σ K a.p a.ndim} (h : DE.minimizeW env R fuel a wr g = .ok o) :
    ReportsTouched fn wr o ∧ (Numbers fn o → LeastOfRun fn o) := by
  obtain ⟨fn', wr', P, s0, r, L, hfn', hw, hobj, hinit, hrun, rfl⟩ := DE.minimizeW_ok he h
  obtain rfl : fn = fn' := by rw [hfn] at hfn'; exact Option.some.inj hfn'
  obtain ⟨i, hi, hs0⟩ := DE.initW_ok hinit
  obtain ⟨l, st, msg, hH, -, -, -, hr⟩ := run_hist hrun
  have h0 : DE.I1W wr' fn s0 := by
    rw [hs0]
    have ht : ∀ j, Touched fn wr' (List.ofFn (DE.initPop P a.x0Pop (a.seeded R g)).1) (wr' ((DE.initPop P a.x0Pop (a.seeded R g)).1 j))
        (P.obj.pop (DE.initPop P a.x0Pop (a.seeded R g)).1 j) := fun j => ⟨_, List.mem_ofFn.2 ⟨j, rfl⟩, hobj.pop _ _, Or.inl rfl⟩
    exact ⟨fun j => Or.inl (ht j), False.elim, ht i⟩
  refine ⟨?_, fun hnum => ?_⟩
  · have := (hH.inv (DE.I1W wr' fn) h0 (fun _ _ _ _ _ hI hs => DE.I1W_step hobj hI hs) (fun _ _ _ h => h) L.s (by simp)).best
    have := touched_inPlace this hw
    rw [hr]; exact this
  · have hsub : s0.evals ⊆ L.s.evals := hH.inv (fun s => s0.evals ⊆ s.evals) (fun _ h => h)
      (fun _ _ _ _ _ hI hs => fun y hy => DE.evalsW_step hs (hI hy)) (fun _ _ _ h => h) L.s (by simp)
    have h2 : DE.I2W fn s0 := by
      have hn : ∀ y ∈ s0.evals, fn y ≠ .nan := fun y hy => hnum y (hsub hy)
      rw [hs0] at hn ⊢
      refine init_inv2A hi (fun j => ?_) ?_
      · exact fun e => hn _ (List.mem_ofFn.2 ⟨j, rfl⟩) ((hobj.pop _ j).symm.trans e)
      · rintro v ⟨y, hy, rfl⟩
        obtain ⟨j, rfl⟩ := List.mem_ofFn.1 hy
        exact ⟨j, (hobj.pop _ _).symm⟩
    intro y hy
    have := (hH.inv (DE.I2W fn) h2 (fun _ _ _ _ _ hI hs => DE.I2W_step hobj hI hs) (fun _ _ _ h => h) L.s (by simp)).all _
      ⟨y, hy, rfl⟩ (hnum y hy)
    rw [hr]; exact this

/-- For `cpso` some value of the run must be below `1e30` (the value written into restarted particles), unless restarts are
switched off. -/
theorem C103_point_cpso_partial [NumFns K] (he : env.Ok) (hsrt : IsArgsort srt) {a : CPSO.Args K} [CPSO.FewRestarts K a.p]
    {wr : Vec K a.ndim → Vec K a.ndim} {fn : Vec K a.ndim → Val K} (hfn : a.fn = some fn) {o : Output σ K a.p a.ndim}
    (h : CPSO.minimizeW env R srt fuel a wr g = .ok o)
    (hlow : a.competitivity = none ∨ a.competitivity = some 0 ∨ ∀ y ∈ o.evals, fn y < .fin (10 ^ 30)) :
    ReportsTouched fn wr o ∧ (Numbers fn o → LeastOfRun fn o) := by
  obtain ⟨fn', wr', P, s0, r, L, hfn', hv, rfl, hgam, hw, hobj, hinit, hrun, rfl⟩ := CPSO.minimizeW_ok he h
  obtain rfl : fn = fn' := by rw [hfn] at hfn'; exact Option.some.inj hfn'
  have hp : 0 < a.p := by have := (CPSO.validate_ok hv).2.2.2.1; show 0 < a.popsize.toNat; omega
  obtain ⟨i, hi, hs0⟩ := CPSO.initW_ok hinit
  obtain ⟨l, st, msg, hH, -, -, -, hr⟩ := run_hist hrun
  have hsub : s0.evals ⊆ L.s.evals := hH.inv (fun s => s0.evals ⊆ s.evals) (fun _ h => h)
    (fun _ _ _ _ _ hI hs => fun y hy => CPSO.evalsW_step hs (hI hy)) (fun it s _ h => by
      have he : ((CPSO.algW wr' P a.sync).post it s).evals = s.evals := (CPSO.post_fields it s).2.2.1
      rw [he]; exact h) L.s (by simp)
  have h0 : CPSO.I1W P wr' fn s0 := by
    have hlow' : P.gamma = none ∨ P.gamma = some 0 ∨ ∀ y ∈ s0.evals, fn y < .fin (10 ^ 30) := by
      rw [hgam]; exact hlow.imp id (Or.imp id fun h y hy => h y (hsub hy))
    rw [hs0] at hlow' ⊢
    have ht : ∀ j, Touched fn wr' (List.ofFn (CPSO.initPop P a.x0Pop (a.seeded R g)).1) ((CPSO.initPop P a.x0Pop (a.seeded R g)).1 j)
        (P.obj.pop (CPSO.initPop P a.x0Pop (a.seeded R g)).1 j) := fun j => ⟨_, List.mem_ofFn.2 ⟨j, rfl⟩, hobj.pop _ _, Or.inr rfl⟩
    refine ⟨fun j => Or.inl (ht j), ?_, ⟨_, List.mem_ofFn.2 ⟨i, rfl⟩, hobj.pop _ _, Or.inl rfl⟩⟩
    rintro ⟨gm, hgm, hgm0⟩
    rcases hlow' with h | h | h
    · rw [h] at hgm; simp at hgm
    · rw [h] at hgm; simp at hgm; exact absurd hgm.symm hgm0
    · exact ⟨⟨0, hp⟩, Eq.trans_lt (hobj.pop (CPSO.initPop P a.x0Pop (a.seeded R g)).1 ⟨0, hp⟩) (h _ (List.mem_ofFn.2 ⟨⟨0, hp⟩, rfl⟩))⟩
  have hfin : ∀ (Q : CPSO.State σ K a.p a.ndim → Prop), Q s0 →
      (∀ it s s' st, CPSO.I1W P wr' fn s → Q s → (CPSO.algW wr' P a.sync).step it s = .ok (s', st) → Q s') →
      (∀ it s, CPSO.I1W P wr' fn s → Q s → Q (CPSO.post P it s)) → CPSO.I1W P wr' fn L.s ∧ Q L.s := fun Q hQ h1 h2 =>
    hH.inv (fun s => CPSO.I1W P wr' fn s ∧ Q s) ⟨h0, hQ⟩
      (fun it s s' st _ hI hs => ⟨CPSO.I1W_step hobj hI.1 hs, h1 it s s' st hI.1 hI.2 hs⟩)
      (fun it s _ hI => ⟨CPSO.I1W_post hsrt hp it hI.1, h2 it s hI.1 hI.2⟩) L.s (by simp)
  refine ⟨?_, fun hnum => ?_⟩
  · have := (hfin (fun _ => True) trivial (fun _ _ _ _ _ _ _ => trivial) (fun _ _ _ _ => trivial)).1.best
    have := touched_inPlace this hw
    rw [hr]; exact this
  · have h2 : CPSO.I2W fn s0 := by
      have hn : ∀ y ∈ s0.evals, fn y ≠ .nan := fun y hy => hnum y (hsub hy)
      rw [hs0] at hn ⊢
      refine init_inv2A hi (fun j => ?_) ?_
      · exact fun e => hn _ (List.mem_ofFn.2 ⟨j, rfl⟩) ((hobj.pop _ j).symm.trans e)
      · rintro v ⟨y, hy, rfl⟩
        obtain ⟨j, rfl⟩ := List.mem_ofFn.1 hy
        exact ⟨j, (hobj.pop _ _).symm⟩
    intro y hy
    have := (hfin (CPSO.I2W fn) h2 (fun _ _ _ _ _ hI hs => CPSO.I2W_step hobj hI hs)
      (fun it _ h1 h2 => CPSO.I2W_post hsrt hp it h1 h2)).2.all _ ⟨y, hy, rfl⟩ (hnum y hy)
    rw [hr]; exact this

theorem C103_point_pso_partial [NumFns K] (he : env.Ok) (hsrt : IsArgsort srt) {a : PSO.Args K} [CPSO.FewRestarts K a.toCPSO.p]
    {wr : Vec K a.ndim → Vec K a.ndim} {fn : Vec K a.ndim → Val K} (hfn : a.fn = some fn) {o : Output σ K a.p a.ndim}
    (h : PSO.minimizeW env R srt fuel a wr g = .ok o) : ReportsTouched fn wr o ∧ (Numbers fn o → LeastOfRun fn o) :=
  C103_point_cpso_partial (a := a.toCPSO) he hsrt hfn h (Or.inl rfl)

/-- An objective whose value does not depend on its own writes (it clips, sorts or projects and then evaluates what it wrote): the
reported value is the value of the reported point. -/
theorem ReportsTouched.value {p n : Nat} {fn : Vec K n → Val K} {wr : Vec K n → Vec K n} {o : Output σ K p n} (h : ReportsTouched fn wr o)
    (hw : ∀ x, fn (wr x) = fn x) : o.res.fval = fn o.res.x := by
  obtain ⟨y, _, hv, hx | hx⟩ := h
  · rw [hx, hw, hv]
  · rw [hx, hv]

end optimizers

section exact
variable {K σ : Type} [Field K] [LinearOrder K] [IsStrictOrderedRing K] [FloorRing K]
variable {env : Env} {R : Rng σ K} {srt : Argsort K} {fuel : Nat} {g : σ}

/-! ## Clipping in place -/

/-- An objective that moves points outside the bounds back in place (`np.clip(x, lower, upper, out=x)`) does no harm to a run whose
points are inside the bounds (C15, C16). -/
theorem C103_clip_de_partial (he : env.Ok) (hR : R.Ok) {a : DE.Args K} (hc : a.constraints = some "Random")
    (hs : GoodStart a.toCommonArgs) {wr : Vec K a.ndim → Vec K a.ndim}
    (hw : ∀ x, InBox (lo a.toCommonArgs) (hi a.toCommonArgs) x → wr x = x) (hb : a.backend ≠ some "mpi") {o : Output σ K a.p a.ndim}
    (h : DE.minimize env R fuel a g = .ok o) : DE.minimizeW env R fuel a wr g = .ok o :=
  C103_same_de_partial h (fun y hy => hw y ((C15_de he hR hc hs h).1.evals y hy)) hb

theorem C103_clip_cpso_partial [NumFns K] (he : env.Ok) (hR : R.Ok) {a : CPSO.Args K} (hc : a.constraints = some "Shrink")
    (hs : GoodStart a.toCommonArgs) {wr : Vec K a.ndim → Vec K a.ndim}
    (hw : ∀ x, InBox (lo a.toCommonArgs) (hi a.toCommonArgs) x → wr x = x) (hb : a.backend ≠ some "mpi") {o : Output σ K a.p a.ndim}
    (h : CPSO.minimize env R srt fuel a g = .ok o) : CPSO.minimizeW env R srt fuel a wr g = .ok o :=
  C103_same_cpso_partial h (fun y hy => hw y ((C16_cpso he hR hc hs h).1.evals y hy)) hb

theorem C103_clip_pso_partial [NumFns K] (he : env.Ok) (hR : R.Ok) {a : PSO.Args K} (hc : a.constraints = some "Shrink")
    (hs : GoodStart a.toCommonArgs) {wr : Vec K a.ndim → Vec K a.ndim}
    (hw : ∀ x, InBox (lo a.toCommonArgs) (hi a.toCommonArgs) x → wr x = x) (hb : a.backend ≠ some "mpi") {o : Output σ K a.p a.ndim}
    (h : PSO.minimize env R srt fuel a g = .ok o) : PSO.minimizeW env R srt fuel a wr g = .ok o :=
  C103_same_pso_partial h (fun y hy => hw y ((C16_pso he hR hc hs h).1.evals y hy)) hb

end exact

/-! ## Samplers -/

section samplers
open Sampling
variable {K σ : Type} [Zero K] [One K] [Add K] [Sub K] [Mul K] [Div K] [Neg K] [NatCast K] [IntCast K] [Pow K ℕ] [ArrayOps K] [LinearOrder K] [NumFns K]
variable {R : Rng σ K} {fuel : Nat} {g : σ}

theorem C103_same_mcmc_partial [IntParts K] {a : MCMC.Args K} {wr : Vec (Val K) a.ndim → Vec (Val K) a.ndim} {o : Sampling.Output σ K a.ndim}
    (h : (MCMC.sample R fuel a g).1 = .ok o) (hw : LeavesAlone wr o.evals) : MCMC.sampleW R fuel a wr g = MCMC.sample R fuel a g :=
  MCMC.sampleW_agree h hw

theorem C103_same_hmc_partial {a : HMC.Args K} {wr : Vec (Val K) a.ndim → Vec (Val K) a.ndim} {o : Sampling.Output σ K a.ndim}
    (h : (HMC.sample R a g).1 = .ok o) (hw : LeavesAlone wr o.evals) : HMC.sampleW R a wr g = HMC.sample R a g :=
  HMC.sampleW_agree h hw

theorem Sampling.attach_some {α : Type} {b : Bool} {l l' : List α} (h : attach b l = some l') : l' = l := by
  unfold attach at h
  split_ifs at h
  exact (Option.some.inj h).symm

theorem C103_point_mcmc_partial [IntParts K] {a : MCMC.Args K} {wr : Vec (Val K) a.ndim → Vec (Val K) a.ndim}
    {fn : Vec (Val K) a.ndim → Val K} (hfn : a.fn = some fn) {o : Sampling.Output σ K a.ndim} (h : (MCMC.sampleW R fuel a wr g).1 = .ok o) :
    SamplesTouched fn wr o := by
  obtain ⟨fn', s, hfn', hI, rfl⟩ := MCMC.sampleW_ok h
  obtain rfl : fn = fn' := by rw [hfn] at hfn'; exact Option.some.inj hfn'
  refine ⟨fun xs fs hx hf => ?_, ?_⟩
  · obtain rfl := attach_some hx
    obtain rfl := attach_some hf
    exact ⟨hI.len, hI.pair⟩
  · rcases hI.best with h | ⟨_, h⟩
    · exact Or.inr h
    · exact Or.inl h

theorem C103_point_hmc_partial {a : HMC.Args K} {wr : Vec (Val K) a.ndim → Vec (Val K) a.ndim}
    {fn : Vec (Val K) a.ndim → Val K} (hfn : a.fn = some fn) {o : Sampling.Output σ K a.ndim} (h : (HMC.sampleW R a wr g).1 = .ok o) :
    SamplesTouched fn wr o ∧ Touched fn wr o.evals o.x o.fval := by
  obtain ⟨fn', s, hfn', hI, hfin⟩ := HMC.sampleW_ok h
  obtain rfl : fn = fn' := by rw [hfn] at hfn'; exact Option.some.inj hfn'
  obtain ⟨i, h1, h2, h3, h4, h5⟩ := HMC.finish_ok hfin
  have hb : Touched fn wr o.evals o.x o.fval := by
    rw [h1, h2, h3]
    have hi : i.val < s.xs.length := by rw [hI.len]; exact i.isLt
    rw [List.getD_eq_getElem?_getD, List.getElem?_eq_getElem hi]
    refine hI.pair (s.xs[i.val], s.fs[i.val]) ?_
    rw [List.mem_iff_getElem]
    exact ⟨i.val, by rw [List.length_zip]; exact lt_min hi i.isLt, by simp⟩
  refine ⟨⟨fun xs fs hx hf => ?_, Or.inl hb⟩, hb⟩
  rw [h4] at hx; rw [h5] at hf; rw [h3]
  obtain rfl := attach_some hx
  obtain rfl := attach_some hf
  exact ⟨hI.len, hI.pair⟩

end samplers

/-! ## Runs

The objective `x -= c; return (x * x).sum()` with `c = (3/5, -1/2)`: it returns `sphere2 x` and leaves `x - c`. -/

namespace Concrete

/-- `x -= c`. -/
def shiftBy (x : Vec ℚ 2) : Vec ℚ 2 := fun j => x j - (if j = 0 then 3 / 5 else -1 / 2)

/-- The value reported is not the value of the reported point. -/
def wrongPair {p : Nat} (o : Output Nat ℚ p 2) : Bool := !decide (o.res.fval = sphere2 o.res.x)

/-- The same in a chain that does not only stay where it is: some recorded value is not the value of the recorded point. -/
def wrongSample (o : Sampling.Output Nat ℚ 2) : Bool :=
  match o.xall, o.funall with
  | some xs, some fs => (xs.zip fs).any fun q => !decide (q.2 = bowl q.1)
  | _, _ => false

/-- `x += 1`, after `(x * x).sum()` was computed. -/
def bump (x : Vec (Val ℚ) 2) : Vec (Val ℚ) 2 := fun j => x j + .fin 1

end Concrete

/-- The same call, with an objective that returns the same values, reports a wrong value if the objective overwrites its argument. -/
theorem C103_de_violated : (∃ o, DE.minimize Concrete.env rng 10 deArgs 0 = .ok o ∧ o.res.fval = sphere2 o.res.x) ∧
    ∃ o, DE.minimizeW Concrete.env rng 10 deArgs shiftBy 0 = .ok o ∧ o.res.fval ≠ sphere2 o.res.x := by
  obtain ⟨o, h, ho⟩ := returns_iff (r := DE.minimize Concrete.env rng 10 deArgs 0) (t := fun o => !wrongPair o) (by decide +kernel)
  obtain ⟨o', h', ho'⟩ := returns_iff (r := DE.minimizeW Concrete.env rng 10 deArgs shiftBy 0) (t := wrongPair) (by decide +kernel)
  exact ⟨⟨o, h, by simpa [wrongPair] using ho⟩, o', h', by simpa [wrongPair] using ho'⟩

theorem C103_cpso_violated : (∃ o, CPSO.minimize Concrete.env rng stableArgsort 10 cpsoArgs 0 = .ok o ∧ o.res.fval = sphere2 o.res.x) ∧
    ∃ o, CPSO.minimizeW Concrete.env rng stableArgsort 10 cpsoArgs shiftBy 0 = .ok o ∧ o.res.fval ≠ sphere2 o.res.x := by
  obtain ⟨o, h, ho⟩ := returns_iff (r := CPSO.minimize Concrete.env rng stableArgsort 10 cpsoArgs 0) (t := fun o => !wrongPair o) (by decide +kernel)
  obtain ⟨o', h', ho'⟩ := returns_iff (r := CPSO.minimizeW Concrete.env rng stableArgsort 10 cpsoArgs shiftBy 0) (t := wrongPair) (by decide +kernel)
  exact ⟨⟨o, h, by simpa [wrongPair] using ho⟩, o', h', by simpa [wrongPair] using ho'⟩

theorem C103_pso_violated : (∃ o, PSO.minimize Concrete.env rng stableArgsort 10 psoArgs 0 = .ok o ∧ o.res.fval = sphere2 o.res.x) ∧
    ∃ o, PSO.minimizeW Concrete.env rng stableArgsort 10 psoArgs shiftBy 0 = .ok o ∧ o.res.fval ≠ sphere2 o.res.x := by
  obtain ⟨o, h, ho⟩ := returns_iff (r := PSO.minimize Concrete.env rng stableArgsort 10 psoArgs 0) (t := fun o => !wrongPair o) (by decide +kernel)
  obtain ⟨o', h', ho'⟩ := returns_iff (r := PSO.minimizeW Concrete.env rng stableArgsort 10 psoArgs shiftBy 0) (t := wrongPair) (by decide +kernel)
  exact ⟨⟨o, h, by simpa [wrongPair] using ho⟩, o', h', by simpa [wrongPair] using ho'⟩

/-- Recorded samples with the values of other points. -/
theorem C103_mcmc_violated : (∃ o, (MCMC.sample rng 10 mcmcArgs 0).1 = .ok o ∧ wrongSample o = false) ∧
    ∃ o, (MCMC.sampleW rng 10 mcmcArgs bump 0).1 = .ok o ∧ wrongSample o = true := by
  obtain ⟨o, h, ho⟩ := returns_iff (r := (MCMC.sample rng 10 mcmcArgs 0).1) (t := fun o => !wrongSample o) (by decide +kernel)
  exact ⟨⟨o, h, by simpa using ho⟩, returns_iff (by decide +kernel)⟩

theorem C103_hmc_violated : (∃ o, (HMC.sample rng hmcArgs 0).1 = .ok o ∧ wrongSample o = false) ∧
    ∃ o, (HMC.sampleW rng hmcArgs bump 0).1 = .ok o ∧ wrongSample o = true := by
  obtain ⟨o, h, ho⟩ := returns_iff (r := (HMC.sample rng hmcArgs 0).1) (t := fun o => !wrongSample o) (by decide +kernel)
  exact ⟨⟨o, h, by simpa using ho⟩, returns_iff (by decide +kernel)⟩

namespace Concrete

/-- `np.clip(x, -1, 1, out=x)`. -/
def clip2 (x : Vec ℚ 2) : Vec ℚ 2 := fun j => max (-1) (min 1 (x j))

theorem clip2_inside {x : Vec ℚ 2} (h : ∀ j, -1 ≤ x j ∧ x j ≤ 1) : clip2 x = x := by
  funext j
  rw [clip2, min_eq_right (h j).2, max_eq_right (h j).1]

theorem good : GoodStart deArgs.toCommonArgs := ⟨by decide +kernel, by intro x hx; cases hx⟩

/-- The clipping objective gives the run of the plain one, in which the best value improves. -/
example : ∃ o, DE.minimizeW Concrete.env rng 10 deArgs clip2 0 = .ok o ∧ improves o = true := by
  obtain ⟨o, h, ho⟩ := de_run
  exact ⟨o, C103_clip_de_partial env_ok rng_ok rfl good (fun x hx => clip2_inside hx) (by decide) h, ho⟩

example : ∃ o, PSO.minimizeW Concrete.env rng stableArgsort 10 psoArgs clip2 0 = .ok o ∧ improves o = true := by
  obtain ⟨o, h, ho⟩ := pso_run
  exact ⟨o, C103_clip_pso_partial (a := psoArgs) env_ok rng_ok rfl good (fun x hx => clip2_inside hx) (by decide) h, ho⟩

/-- The run of the witness: the reported value belongs to a point that the objective turned into the reported one, and it is the
least of the run. -/
example : ∃ o, DE.minimizeW Concrete.env rng 10 deArgs shiftBy 0 = .ok o ∧ ReportsTouched sphere2 shiftBy o ∧ LeastOfRun sphere2 o := by
  obtain ⟨_, o, h, _⟩ := C103_de_violated
  obtain ⟨h1, h2⟩ := C103_point_de_partial (fn := sphere2) env_ok rfl h
  exact ⟨o, h, h1, h2 fun y _ => by simp [sphere2]⟩

example : ∃ o, CPSO.minimizeW Concrete.env rng stableArgsort 10 cpsoArgs shiftBy 0 = .ok o ∧ ReportsTouched sphere2 shiftBy o := by
  obtain ⟨o, h, ho⟩ := returns_iff (r := CPSO.minimizeW Concrete.env rng stableArgsort 10 cpsoArgs shiftBy 0)
    (t := fun o => o.evals.all fun y => decide (sphere2 y < .fin (10 ^ 30))) (by decide +kernel)
  refine ⟨o, h, (C103_point_cpso_partial (fn := sphere2) env_ok isArgsort_stable rfl h (Or.inr (Or.inr fun y hy => ?_))).1⟩
  exact of_decide_eq_true (List.all_eq_true.1 ho y hy)

example : ∃ o, (MCMC.sampleW rng 10 mcmcArgs bump 0).1 = .ok o ∧ SamplesTouched bowl bump o := by
  obtain ⟨_, o, h, _⟩ := C103_mcmc_violated
  exact ⟨o, h, C103_point_mcmc_partial rfl h⟩

example : ∃ o, (HMC.sampleW rng hmcArgs bump 0).1 = .ok o ∧ Touched bowl bump o.evals o.x o.fval := by
  obtain ⟨_, o, h, _⟩ := C103_hmc_violated
  exact ⟨o, h, (C103_point_hmc_partial rfl h).2⟩

/-- An objective that clips to `[-100, 100]` in place changes nothing in these chains. -/
def clip100 (x : Vec (Val ℚ) 2) : Vec (Val ℚ) 2 := fun j =>
  if .fin 100 < x j then .fin 100 else if x j < .fin (-100) then .fin (-100) else x j

def kept (y : Vec (Val ℚ) 2) : Bool := decide (∀ j : Fin 2, clip100 y j = y j)

theorem kept_iff {l : List (Vec (Val ℚ) 2)} (h : l.all kept = true) : LeavesAlone clip100 l :=
  fun y hy => funext (of_decide_eq_true (List.all_eq_true.1 h y hy))

example : MCMC.sampleW rng 10 mcmcArgs clip100 0 = MCMC.sample rng 10 mcmcArgs 0 := by
  obtain ⟨o, h, ho⟩ := returns_iff (r := (MCMC.sample rng 10 mcmcArgs 0).1)
    (t := fun o => o.evals.all kept) (by decide +kernel)
  exact C103_same_mcmc_partial h (kept_iff ho)

example : HMC.sampleW rng hmcArgs clip100 0 = HMC.sample rng hmcArgs 0 := by
  obtain ⟨o, h, ho⟩ := returns_iff (r := (HMC.sample rng hmcArgs 0).1)
    (t := fun o => o.evals.all kept) (by decide +kernel)
  exact C103_same_hmc_partial h (kept_iff ho)

/-- `na` with the objective of the other witnesses. -/
example : ∃ o, NA.minimizeW Concrete.env rng stableArgsort 10 naArgs shiftBy 0 = .ok o ∧ improves o = true := by
  obtain ⟨o, h, ho⟩ := na_run
  exact ⟨o, (C103_na shiftBy).trans h, ho⟩

end Concrete

end Stochopy
