import Verif.Lemmas.StateWrites
import Verif.Props.CallbackWrites

/-!
# C111: callbacks that write into the state they are given

`minimizeB … wr` is a call whose `k`-th callback leaves `wr k (X, x)` in the arrays that held the population `X` and the best solution
`x = state.x` (`Model/StateWrites.lean`).

The claim "the reported `x` was evaluated and `fun` is its value, whatever the callback writes into `state.x`" is false for `de`, `cpso`
and `pso`: `C111_*_violated`.  With deferred updating only the last call matters, since every selection copies the best solution anew
(`C111_point_*_partial`); with immediate updating an early write may remain (`C111_early_violated`).  Whatever is written, `fun` is the least
value returned in the call, never increases and the counts are right (`C111_best_*_partial`).  Writes that leave what was shown as it is
change nothing (`C111_same_*`).
-/

set_option linter.unusedSectionVars false

namespace Stochopy
open Spec Concrete

section optimizers
variable {K σ : Type} [AddZeroClass K] [One K] [Sub K] [Mul K] [Div K] [Neg K] [NatCast K] [IntCast K] [Pow K ℕ] [ArrayOps K] [LinearOrder K] [IntParts K]
variable {env : Env} {R : Rng σ K} {srt : Argsort K} {fuel : Nat} {g : σ}

/-! ## Writes that leave what was shown as it is -/

theorem C111_same_de {a : DE.Args K} {wr : Nat → Pop K a.p a.ndim × Vec K a.ndim → Pop K a.p a.ndim × Vec K a.ndim}
    {o : Output σ K a.p a.ndim} (h : DE.minimize env R fuel a g = .ok o) (hw : LeavesState wr o) :
    DE.minimizeB env R fuel a wr g = .ok o :=
  DE.minimizeB_same h hw

theorem C111_same_cpso [NumFns K] {a : CPSO.Args K} {wr : Nat → Pop K a.p a.ndim × Vec K a.ndim → Pop K a.p a.ndim × Vec K a.ndim}
    {o : Output σ K a.p a.ndim} (h : CPSO.minimize env R srt fuel a g = .ok o) (hw : LeavesState wr o) :
    CPSO.minimizeB env R srt fuel a wr g = .ok o :=
  CPSO.minimizeB_same h hw

theorem C111_same_pso [NumFns K] {a : PSO.Args K} {wr : Nat → Pop K a.p a.ndim × Vec K a.ndim → Pop K a.p a.ndim × Vec K a.ndim}
    {o : Output σ K a.p a.ndim} (h : PSO.minimize env R srt fuel a g = .ok o) (hw : LeavesState wr o) :
    PSO.minimizeB env R srt fuel a wr g = .ok o :=
  CPSO.minimizeB_same (a := a.toCPSO) h hw

/-! ## Values and counts -/

/-- The value that `de` reports, whatever the callback writes into the population and into `state.x`. -/
theorem C111_best_de_partial (he : env.Ok) {a : DE.Args K} {wr : Nat → Pop K a.p a.ndim × Vec K a.ndim → Pop K a.p a.ndim × Vec K a.ndim}
    {fn : Vec K a.ndim → Val K} (hfn : a.fn = some fn) {o : Output σ K a.p a.ndim} (h : DE.minimizeB env R fuel a wr g = .ok o) :
    ((∀ x ∈ o.evals.take a.p, fn x ≠ .nan) → BestOfRun fn o) ∧ BestNeverWorsens o ∧ CountsExact o := by
  obtain ⟨fn', P, s0, r, L, w, hfn', hobj, hstr, hinit, hw, hrun, rfl⟩ := DE.minimizeB_ok he h
  obtain rfl : fn = fn' := by rw [hfn] at hfn'; exact Option.some.inj hfn'
  have hk := DE.keeps2 hw
  obtain ⟨i, hi, hs0⟩ := DE.init_ok hinit
  have hlen : s0.evals.length = a.p := by rw [hs0]; simp
  obtain ⟨hnever, hcount, htake⟩ := values_writing (caller := fun s => (w L.it s).caller) (rng := DE.State.rng)
    (DE.laws (P := P) a.sync hstr) (DE.mono (P := P) (sync := a.sync) hobj) hk.gfit hk.evals
    (fun k s hI => by unfold DE.IM at hI ⊢; rw [hk.pbestfit, hk.gfit]; exact hI) (by rw [hs0]; exact init_invM hi) hlen hrun
  obtain ⟨l, st, msg, hH, -, -, -, hr⟩ := run_hist hrun
  refine ⟨fun hnan => ?_, hnever, hcount⟩
  have h2 : DE.I2 fn s0 := by
    have hn : ∀ x ∈ s0.evals, fn x ≠ .nan := by rw [← htake]; exact hnan
    rw [hs0] at hn ⊢
    refine init_inv2 hi (fun j => hobj.pop _ _) (fun j => ?_) (fun y hy => ?_)
    · dsimp only; rw [hobj.pop]; exact hn _ (List.mem_ofFn.2 ⟨j, rfl⟩)
    · obtain ⟨j, rfl⟩ := List.mem_ofFn.1 hy; exact ⟨j, rfl⟩
  have := hH.inv_writing (DE.I2 fn) h2 (fun _ _ _ _ hI hs => DE.I2_step hobj hI hs) (fun _ _ h => h)
    (fun k s hI => by
      unfold DE.I2 at hI ⊢
      rw [hk.pbestfit, hk.gfit, hk.evals]
      exact hI) L.s (by simp)
  intro x hx hn
  rw [hr]; exact this.all x hx hn

/-- The value that `cpso` reports; the condition on restarts is that of C01. -/
theorem C111_best_cpso_partial [NumFns K] (he : env.Ok) (hsrt : IsArgsort srt) {a : CPSO.Args K} [CPSO.FewRestarts K a.p]
    {wr : Nat → Pop K a.p a.ndim × Vec K a.ndim → Pop K a.p a.ndim × Vec K a.ndim} {fn : Vec K a.ndim → Val K} (hfn : a.fn = some fn)
    {o : Output σ K a.p a.ndim} (h : CPSO.minimizeB env R srt fuel a wr g = .ok o)
    (hlow : a.competitivity = none ∨ a.competitivity = some 0 ∨ ∃ x ∈ o.evals.take a.p, fn x < .fin (10 ^ 30)) :
    ((∀ x ∈ o.evals.take a.p, fn x ≠ .nan) → BestOfRun fn o) ∧ BestNeverWorsens o ∧ CountsExact o := by
  obtain ⟨fn', P, s0, r, L, w, hfn', hv, hobj, rfl, hgam, hinit, hw, hrun, rfl⟩ := CPSO.minimizeB_ok he h
  obtain rfl : fn = fn' := by rw [hfn] at hfn'; exact Option.some.inj hfn'
  have hk := CPSO.keeps2 hw
  have hp : 0 < a.p := by have := (CPSO.validate_ok hv).2.2.2.1; show 0 < a.popsize.toNat; omega
  obtain ⟨i, hi, hs0⟩ := CPSO.init_ok hinit
  have hlen : s0.evals.length = a.p := by rw [hs0]; simp
  obtain ⟨hnever, hcount, htake⟩ := values_writing (caller := fun s => (w L.it s).caller) (rng := CPSO.State.rng)
    (CPSO.laws (P := P) (p := a.p) a.sync) (CPSO.mono (P := P) (p := a.p) (sync := a.sync) hsrt hp hobj) hk.gfit hk.evals
    (fun k s hI => by unfold CPSO.IM at hI ⊢; rw [hk.pbestfit, hk.gfit]; exact hI) (by rw [hs0]; exact init_invM hi) hlen hrun
  obtain ⟨l, st, msg, hH, -, -, -, hr⟩ := run_hist hrun
  refine ⟨fun hnan => ?_, hnever, hcount⟩
  have h1 : CPSO.Low P s0 := by
    have hlow' : a.competitivity = none ∨ a.competitivity = some 0 ∨ ∃ x ∈ s0.evals, fn x < .fin (10 ^ 30) := by
      rw [← htake]; exact hlow
    rw [hs0] at hlow' ⊢
    rintro ⟨gm, hgm, hgm0⟩
    rcases hlow' with h | h | ⟨x, hx, hlt⟩
    · rw [hgam, h] at hgm; simp at hgm
    · rw [hgam, h] at hgm; simp at hgm; exact absurd hgm.symm hgm0
    · obtain ⟨j, rfl⟩ := List.mem_ofFn.1 hx
      exact ⟨j, by dsimp only; rw [hobj.pop]; exact hlt⟩
  have h2 : CPSO.I2 fn s0 := by
    have hn : ∀ x ∈ s0.evals, fn x ≠ .nan := by rw [← htake]; exact hnan
    rw [hs0] at hn ⊢
    refine init_inv2 hi (fun j => hobj.pop _ _) (fun j => ?_) (fun y hy => ?_)
    · dsimp only; rw [hobj.pop]; exact hn _ (List.mem_ofFn.2 ⟨j, rfl⟩)
    · obtain ⟨j, rfl⟩ := List.mem_ofFn.1 hy; exact ⟨j, rfl⟩
  have := (hH.inv_writing (fun s => CPSO.Low P s ∧ CPSO.I2 fn s) ⟨h1, h2⟩
    (fun _ _ _ _ hI hs => ⟨CPSO.low_step hobj hI.1 hs, CPSO.I2_step hobj hI.2 hs⟩)
    (fun it _ hI => ⟨CPSO.low_post hsrt hp it hI.1, CPSO.low_I2_post hsrt hp it hI.1 hI.2⟩)
    (fun k s hI => by
      unfold CPSO.Low CPSO.I2 at hI ⊢
      rw [hk.pbestfit, hk.gfit, hk.evals]
      exact hI) L.s (by simp)).2
  intro x hx hn
  rw [hr]; exact this.all x hx hn

theorem C111_best_pso_partial [NumFns K] (he : env.Ok) (hsrt : IsArgsort srt) {a : PSO.Args K} [CPSO.FewRestarts K a.toCPSO.p]
    {wr : Nat → Pop K a.p a.ndim × Vec K a.ndim → Pop K a.p a.ndim × Vec K a.ndim} {fn : Vec K a.ndim → Val K} (hfn : a.fn = some fn)
    {o : Output σ K a.p a.ndim} (h : PSO.minimizeB env R srt fuel a wr g = .ok o) :
    ((∀ x ∈ o.evals.take a.p, fn x ≠ .nan) → BestOfRun fn o) ∧ BestNeverWorsens o ∧ CountsExact o :=
  C111_best_cpso_partial (a := a.toCPSO) he hsrt hfn h (Or.inl rfl)

/-! ## Deferred updating -/

/-- Deferred `de`: earlier calls may overwrite `state.x` (but not the population, C110). -/
theorem C111_point_de_partial (he : env.Ok) {a : DE.Args K} (ha : a.sync = true)
    {wr : Nat → Pop K a.p a.ndim × Vec K a.ndim → Pop K a.p a.ndim × Vec K a.ndim} (hX : ∀ k q, (wr k q).1 = q.1)
    {fn : Vec K a.ndim → Val K} (hfn : a.fn = some fn) {o : Output σ K a.p a.ndim} (h : DE.minimizeB env R fuel a wr g = .ok o)
    (hlast : LeavesLast wr o) : ReportsEvaluatedPoint fn o := by
  obtain ⟨fn', P, s0, r, L, w, hfn', hobj, hstr, hinit, hw, hrun, rfl⟩ := DE.minimizeB_ok he h
  obtain rfl : fn = fn' := by rw [hfn] at hfn'; exact Option.some.inj hfn'
  have hk := DE.keeps2 hw
  have hwX : ∀ k s, (w k s).X = s.X := by
    rcases hw with ⟨rfl, _⟩ | rfl
    · exact fun k s => hX k _
    · exact fun _ _ => rfl
  rw [ha] at hrun
  obtain ⟨i, hi, hs0⟩ := DE.init_ok hinit
  have hit := (run_it hrun).1
  obtain ⟨l, st, msg, hH, -, hlog, -, hr⟩ := run_hist hrun
  have hbest : (w L.it L.s).gbest = L.s.gbest := by
    rcases hw with ⟨rfl, hc⟩ | rfl
    · have := hlast _ (hlog.getLast hc)
      rw [hr] at hit
      rw [show L.it = l.length + 1 from hit.symm]
      exact this
    · rfl
  have := (hH.last_writing (DE.OwnFits fn) (DE.I1 fn)
    (by rw [hs0]; exact ⟨fun j => Or.inl ⟨hobj.pop _ _, by simp⟩, False.elim, hobj.pop _ _, by simp⟩)
    (fun s h => h.fits') (fun _ _ _ _ hI hs => DE.ownFits_step hobj hI hs) (fun _ _ h => h)
    (fun k s hI => by
      unfold DE.OwnFits at hI ⊢
      rw [hk.pbestfit, hwX, hk.evals]
      exact hI)).best
  rw [hr]
  show L.s.gfit = fn (w L.it L.s).gbest ∧ (w L.it L.s).gbest ∈ L.s.evals
  rw [hbest]
  exact this

/-- Deferred `cpso`: earlier calls may overwrite `state.x`, and all calls the population. -/
theorem C111_point_cpso_partial [NumFns K] (he : env.Ok) (hsrt : IsArgsort srt) {a : CPSO.Args K} [CPSO.FewRestarts K a.p]
    (ha : a.sync = true) {wr : Nat → Pop K a.p a.ndim × Vec K a.ndim → Pop K a.p a.ndim × Vec K a.ndim} {fn : Vec K a.ndim → Val K}
    (hfn : a.fn = some fn) {o : Output σ K a.p a.ndim} (h : CPSO.minimizeB env R srt fuel a wr g = .ok o)
    (hlow : a.competitivity = none ∨ a.competitivity = some 0 ∨ ∃ x ∈ o.evals.take a.p, fn x < .fin (10 ^ 30))
    (hlast : LeavesLast wr o) : ReportsEvaluatedPoint fn o := by
  obtain ⟨fn', P, s0, r, L, w, hfn', hv, hobj, rfl, hgam, hinit, hw, hrun, rfl⟩ := CPSO.minimizeB_ok he h
  obtain rfl : fn = fn' := by rw [hfn] at hfn'; exact Option.some.inj hfn'
  have hk := CPSO.keeps2 hw
  have hp : 0 < a.p := by have := (CPSO.validate_ok hv).2.2.2.1; show 0 < a.popsize.toNat; omega
  obtain ⟨i, hi, hs0⟩ := CPSO.init_ok hinit
  have hlen : s0.evals.length = a.p := by rw [hs0]; simp
  obtain ⟨-, -, htake⟩ := values_writing (caller := fun s => (w L.it s).caller) (rng := CPSO.State.rng)
    (CPSO.laws (P := P) (p := a.p) a.sync) (CPSO.mono (P := P) (p := a.p) (sync := a.sync) hsrt hp hobj) hk.gfit hk.evals
    (fun k s hI => by unfold CPSO.IM at hI ⊢; rw [hk.pbestfit, hk.gfit]; exact hI) (by rw [hs0]; exact init_invM hi) hlen hrun
  rw [ha] at hrun
  have hit := (run_it hrun).1
  obtain ⟨l, st, msg, hH, -, hlog, -, hr⟩ := run_hist hrun
  have hbest : (w L.it L.s).gbest = L.s.gbest := by
    rcases hw with ⟨rfl, hc⟩ | rfl
    · have := hlast _ (hlog.getLast hc)
      rw [hr] at hit
      rw [show L.it = l.length + 1 from hit.symm]
      exact this
    · rfl
  have h1 : CPSO.I1 P fn s0 := by
    have hlow' : a.competitivity = none ∨ a.competitivity = some 0 ∨ ∃ x ∈ s0.evals, fn x < .fin (10 ^ 30) := by
      rw [← htake]; exact hlow
    rw [hs0] at hlow' ⊢
    refine ⟨fun j => Or.inl ⟨hobj.pop _ _, by simp⟩, ?_, hobj.pop _ _, by simp⟩
    rintro ⟨gm, hgm, hgm0⟩
    rcases hlow' with h | h | ⟨x, hx, hlt⟩
    · rw [hgam, h] at hgm; simp at hgm
    · rw [hgam, h] at hgm; simp at hgm; exact absurd hgm.symm hgm0
    · obtain ⟨j, rfl⟩ := List.mem_ofFn.1 hx
      exact ⟨j, by dsimp only; rw [hobj.pop]; exact hlt⟩
  have := (hH.last_writing (CPSO.OwnFits P fn) (CPSO.I1 P fn) h1 (fun s h => ⟨h.fits, h.low⟩)
    (fun _ _ _ _ hI hs => CPSO.ownFits_step hobj hI hs) (fun it _ hI => CPSO.ownFits_post hsrt hp it hI)
    (fun k s hI => by
      unfold CPSO.OwnFits at hI ⊢
      rw [hk.pbestfit, hk.pbest, hk.evals]
      exact hI)).best
  rw [hr]
  show L.s.gfit = fn (w L.it L.s).gbest ∧ (w L.it L.s).gbest ∈ L.s.evals
  rw [hbest]
  exact this

theorem C111_point_pso_partial [NumFns K] (he : env.Ok) (hsrt : IsArgsort srt) {a : PSO.Args K} [CPSO.FewRestarts K a.toCPSO.p]
    (ha : a.toCPSO.sync = true) {wr : Nat → Pop K a.p a.ndim × Vec K a.ndim → Pop K a.p a.ndim × Vec K a.ndim} {fn : Vec K a.ndim → Val K}
    (hfn : a.fn = some fn) {o : Output σ K a.p a.ndim} (h : PSO.minimizeB env R srt fuel a wr g = .ok o) (hlast : LeavesLast wr o) :
    ReportsEvaluatedPoint fn o :=
  C111_point_cpso_partial (a := a.toCPSO) he hsrt ha hfn h (Or.inl rfl) hlast

end optimizers

/-! ## Runs -/

namespace Concrete

/-- `def callback(X, state): state.x *= 1000` (metres to millimetres). -/
def toMilli (_ : Nat) (q : Pop ℚ 5 2 × Vec ℚ 2) : Pop ℚ 5 2 × Vec ℚ 2 := (q.1, fun j => 1000 * q.2 j)

/-- The same in the first two calls only. -/
def toMilliEarly (k : Nat) (q : Pop ℚ 5 2 × Vec ℚ 2) : Pop ℚ 5 2 × Vec ℚ 2 := if k ≤ 2 then (q.1, fun j => 1000 * q.2 j) else q

/-- `state.x` rounded towards the bounds it is within anyway. -/
def clipBoth (_ : Nat) (q : Pop ℚ 5 2 × Vec ℚ 2) : Pop ℚ 5 2 × Vec ℚ 2 := (fun i => clip2 (q.1 i), clip2 q.2)

/-- The last call was the third or a later one. -/
def lastThird (o : Output Nat ℚ 5 2) : Bool :=
  match o.cbs.getLast? with
  | some b => decide (3 ≤ b.nit)
  | none => true

theorem lastThird_leaves {o : Output Nat ℚ 5 2} (h : lastThird o = true) : LeavesLast toMilliEarly o := by
  intro b hb
  unfold lastThird at h
  rw [hb] at h
  have hn : ¬ b.nit ≤ 2 := by have := of_decide_eq_true h; omega
  unfold toMilliEarly
  rw [if_neg hn]

theorem toMilliEarly_fst (k : Nat) (q : Pop ℚ 5 2 × Vec ℚ 2) : (toMilliEarly k q).1 = q.1 := by
  unfold toMilliEarly; split_ifs <;> rfl

def insideBoth (b : CB ℚ 5 2) : Bool := inside5 b && decide (∀ j : Fin 2, clip2 b.x j = b.x j)

end Concrete

theorem C111_de_violated : (∃ o, DE.minimize Concrete.env rng 10 deArgs 0 = .ok o ∧ o.res.fval = sphere2 o.res.x) ∧
    ∃ o, DE.minimizeB Concrete.env rng 10 deArgs toMilli 0 = .ok o ∧ o.res.fval ≠ sphere2 o.res.x := by
  obtain ⟨o, h, ho⟩ := returns_iff (r := DE.minimize Concrete.env rng 10 deArgs 0) (t := fun o => !wrongPair o) (by decide +kernel)
  obtain ⟨o', h', ho'⟩ := returns_iff (r := DE.minimizeB Concrete.env rng 10 deArgs toMilli 0) (t := wrongPair) (by decide +kernel)
  exact ⟨⟨o, h, by simpa [wrongPair] using ho⟩, o', h', by simpa [wrongPair] using ho'⟩

theorem C111_pso_violated :
    (∃ o, PSO.minimize Concrete.env rng stableArgsort 10 psoArgs 0 = .ok o ∧ o.res.fval = sphere2 o.res.x) ∧
    ∃ o, PSO.minimizeB Concrete.env rng stableArgsort 10 psoArgs toMilli 0 = .ok o ∧ o.res.fval ≠ sphere2 o.res.x := by
  obtain ⟨o, h, ho⟩ := returns_iff (r := PSO.minimize Concrete.env rng stableArgsort 10 psoArgs 0) (t := fun o => !wrongPair o)
    (by decide +kernel)
  obtain ⟨o', h', ho'⟩ := returns_iff (r := PSO.minimizeB Concrete.env rng stableArgsort 10 psoArgs toMilli 0) (t := wrongPair)
    (by decide +kernel)
  exact ⟨⟨o, h, by simpa [wrongPair] using ho⟩, o', h', by simpa [wrongPair] using ho'⟩

theorem C111_cpso_violated :
    (∃ o, CPSO.minimize Concrete.env rng stableArgsort 10 cpsoArgs 0 = .ok o ∧ o.res.fval = sphere2 o.res.x) ∧
    ∃ o, CPSO.minimizeB Concrete.env rng stableArgsort 10 cpsoArgs toMilli 0 = .ok o ∧ o.res.fval ≠ sphere2 o.res.x := by
  obtain ⟨o, h, ho⟩ := returns_iff (r := CPSO.minimize Concrete.env rng stableArgsort 10 cpsoArgs 0) (t := fun o => !wrongPair o)
    (by decide +kernel)
  obtain ⟨o', h', ho'⟩ := returns_iff (r := CPSO.minimizeB Concrete.env rng stableArgsort 10 cpsoArgs toMilli 0) (t := wrongPair)
    (by decide +kernel)
  exact ⟨⟨o, h, by simpa [wrongPair] using ho⟩, o', h', by simpa [wrongPair] using ho'⟩

/-- Immediate updating: the last call leaves `state.x` alone, an earlier one did not. -/
theorem C111_early_violated : ∃ o, DE.minimizeB Concrete.env rng 10 deArgs toMilliEarly 0 = .ok o ∧ o.res.nit = 3 ∧
    LeavesLast toMilliEarly o ∧ o.res.fval ≠ sphere2 o.res.x := by
  obtain ⟨o', h', ho'⟩ := returns_iff (r := DE.minimizeB Concrete.env rng 10 deArgs toMilliEarly 0)
    (t := fun o => o.res.nit == 3 && wrongPair o && lastThird o) (by decide +kernel)
  simp only [Bool.and_eq_true, beq_iff_eq] at ho'
  exact ⟨o', h', ho'.1.1, lastThird_leaves ho'.2, by simpa [wrongPair] using ho'.1.2⟩

namespace Concrete

example : ∃ o, PSO.minimizeB Concrete.env rng stableArgsort 10 psoArgs toMilli 0 = .ok o ∧ wrongPair o = true ∧ BestOfRun sphere2 o := by
  obtain ⟨o, h, ho⟩ := returns_iff (r := PSO.minimizeB Concrete.env rng stableArgsort 10 psoArgs toMilli 0) (t := wrongPair)
    (by decide +kernel)
  exact ⟨o, h, ho, (C111_best_pso_partial (a := psoArgs) (fn := sphere2) env_ok isArgsort_stable rfl h).1 fun x _ => by simp [sphere2]⟩

example : ∃ o, DE.minimizeB Concrete.env rng 10 deArgs toMilli 0 = .ok o ∧ wrongPair o = true ∧ BestOfRun sphere2 o := by
  obtain ⟨o, h, ho⟩ := returns_iff (r := DE.minimizeB Concrete.env rng 10 deArgs toMilli 0) (t := wrongPair) (by decide +kernel)
  exact ⟨o, h, ho, (C111_best_de_partial (a := deArgs) (fn := sphere2) env_ok rfl h).1 fun x _ => by simp [sphere2]⟩

/-- Deferred updating: two calls overwrite `state.x`, the report is right. -/
example : ∃ o o', PSO.minimizeB Concrete.env rng stableArgsort 10 psoArgs toMilliEarly 0 = .ok o ∧
    PSO.minimize Concrete.env rng stableArgsort 10 psoArgs 0 = .ok o' ∧ o.res.x ≠ o'.res.x ∧ ReportsEvaluatedPoint sphere2 o := by
  obtain ⟨o, h, ho⟩ := returns_iff (r := PSO.minimizeB Concrete.env rng stableArgsort 10 psoArgs toMilliEarly 0)
    (t := fun o => lastThird o &&
      returns (PSO.minimize Concrete.env rng stableArgsort 10 psoArgs 0) fun o' => !decide (o.res.x = o'.res.x)) (by decide +kernel)
  rw [Bool.and_eq_true] at ho
  obtain ⟨o', h', ho'⟩ := returns_iff ho.2
  exact ⟨o, o', h, h', by simpa using ho', C111_point_pso_partial (a := psoArgs) (fn := sphere2) env_ok isArgsort_stable rfl rfl h
    (lastThird_leaves ho.1)⟩

example : ∃ o, DE.minimizeB Concrete.env rng 10 deDeferred toMilliEarly 0 = .ok o ∧ o.res.nit = 3 ∧ ReportsEvaluatedPoint sphere2 o := by
  obtain ⟨o, h, ho⟩ := returns_iff (r := DE.minimizeB Concrete.env rng 10 deDeferred toMilliEarly 0)
    (t := fun o => o.res.nit == 3 && lastThird o) (by decide +kernel)
  simp only [Bool.and_eq_true, beq_iff_eq] at ho
  exact ⟨o, h, ho.1, C111_point_de_partial (a := deDeferred) (fn := sphere2) env_ok rfl toMilliEarly_fst rfl h (lastThird_leaves ho.2)⟩

/-- Restarts, `state.x` overwritten in two calls. -/
example : ∃ o, CPSO.minimizeB Concrete.env rng stableArgsort 10 { cpsoArgs with updating := "deferred" } toMilliEarly 0 = .ok o ∧
    ReportsEvaluatedPoint sphere2 o ∧ BestOfRun sphere2 o := by
  obtain ⟨o, h, ho⟩ := returns_iff
    (r := CPSO.minimizeB Concrete.env rng stableArgsort 10 { cpsoArgs with updating := "deferred" } toMilliEarly 0)
    (t := fun o => ((o.evals.take 5).any fun x => decide (sphere2 x < .fin (10 ^ 30))) && lastThird o) (by decide +kernel)
  rw [Bool.and_eq_true, List.any_eq_true] at ho
  obtain ⟨⟨x, hx, hlt⟩, ho⟩ := ho
  exact ⟨o, h, C111_point_cpso_partial (a := { cpsoArgs with updating := "deferred" }) (fn := sphere2) env_ok isArgsort_stable rfl rfl h
      (Or.inr (Or.inr ⟨x, hx, of_decide_eq_true hlt⟩)) (lastThird_leaves ho),
    (C111_best_cpso_partial (a := { cpsoArgs with updating := "deferred" }) (fn := sphere2) env_ok isArgsort_stable rfl h
      (Or.inr (Or.inr ⟨x, hx, of_decide_eq_true hlt⟩))).1 fun x _ => by simp [sphere2]⟩

/-- A callback that clips both arrays to `[-1, 1]`, where they were anyway. -/
example : ∃ o, DE.minimizeB Concrete.env rng 10 deArgs clipBoth 0 = .ok o ∧ improves o = true := by
  obtain ⟨o, h, ho⟩ := returns_iff (r := DE.minimize Concrete.env rng 10 deArgs 0)
    (t := fun o => improves o && o.cbs.all insideBoth) (by decide +kernel)
  rw [Bool.and_eq_true] at ho
  refine ⟨o, C111_same_de (a := deArgs) h fun b hb => ?_, ho.1⟩
  have := List.all_eq_true.1 ho.2 b hb
  unfold insideBoth at this
  rw [Bool.and_eq_true] at this
  exact Prod.ext (inside5_iff this.1) (funext (of_decide_eq_true this.2))

end Concrete

end Stochopy
