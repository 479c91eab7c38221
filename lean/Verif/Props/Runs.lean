import Verif.Props.Concrete
import Verif.Lemmas.Argsort

/-!
# C01–C05, C09, C10: facts about completed runs of `de`, `pso`, `cpso`, `na`

Every theorem quantifies over the environment (serial, joblib, MPI with any number of ranks), the generator, all
arguments, the state of the global generator and the objective (any function into floats including NaN and ±inf).
-/

set_option linter.unusedSectionVars false

namespace Stochopy
open Spec Concrete
variable {K σ : Type} [AddZeroClass K] [One K] [Sub K] [Mul K] [Div K] [Neg K] [NatCast K] [IntCast K] [Pow K ℕ] [ArrayOps K] [IntParts K] [LinearOrder K]
variable {env : Env} {R : Rng σ K} {srt : Argsort K} {fuel : Nat} {g : σ}

/-! ## C01 -/

theorem C01_de (he : env.Ok) {a : DE.Args K} {fn : Vec K a.ndim → Val K} (hfn : a.fn = some fn)
    {o : Output σ K a.p a.ndim} (h : DE.minimize env R fuel a g = .ok o) : ReportsEvaluatedPoint fn o := by
  obtain ⟨fn', P, s0, r, L, hfn', hv, hobj, -, -, -, -, -, -, -, -, -, -, hinit, hrun, rfl⟩ := DE.minimize_ok he h
  rw [hfn] at hfn'; cases hfn'
  obtain ⟨l, st, msg, hH, -, -, -, rfl⟩ := run_hist hrun
  have h0 : DE.I1 fn s0 := by
    obtain ⟨i, hi, rfl⟩ := DE.init_ok hinit
    refine ⟨fun j => Or.inl ⟨hobj.pop _ _, by simp⟩, False.elim, hobj.pop _ _, by simp⟩
  have := hH.inv (DE.I1 fn) h0 (fun _ _ _ _ _ hI hs => DE.I1_step hobj hI hs) (fun _ _ _ h => h) L.s (by simp)
  exact this.best

/-- For `cpso` some initial value must be below `1e30` (the value written into restarted particles), unless restarts
are switched off. -/
theorem C01_cpso [NumFns K] (he : env.Ok) (hsrt : IsArgsort srt) {a : CPSO.Args K} [CPSO.FewRestarts K a.p]
    {fn : Vec K a.ndim → Val K} (hfn : a.fn = some fn) {o : Output σ K a.p a.ndim}
    (h : CPSO.minimize env R srt fuel a g = .ok o)
    (hlow : a.competitivity = none ∨ a.competitivity = some 0 ∨ ∃ x ∈ o.evals.take a.p, fn x < .fin (10 ^ 30)) :
    ReportsEvaluatedPoint fn o := by
  obtain ⟨fn', P, s0, r, L, hfn', hv, hobj, -, -, rfl, -, -, -, hgam, -, -, -, -, -, hinit, hrun, rfl⟩ :=
    CPSO.minimize_ok he h
  rw [hfn] at hfn'; cases hfn'
  have hl := CPSO.laws (P := P) (p := a.p) a.sync
  obtain ⟨l, st, msg, hH, -, -, -, rfl⟩ := run_hist hrun
  have hp : 0 < a.p := by have := (CPSO.validate_ok hv).2.2.2.1; show 0 < a.popsize.toNat; omega
  have h0 : CPSO.I1 P fn s0 := by
    obtain ⟨i, hi, rfl⟩ := CPSO.init_ok hinit
    refine ⟨fun j => Or.inl ⟨hobj.pop _ _, by simp⟩, ?_, hobj.pop _ _, by simp⟩
    rintro ⟨gm, hgm, hgm0⟩
    rcases hlow with h | h | ⟨x, hx, hlt⟩
    · rw [hgam, h] at hgm; simp at hgm
    · rw [hgam, h] at hgm; simp at hgm; exact absurd hgm.symm hgm0
    · have := hl.ev_take (by simp) hH
      rw [show (mkOut _ L CPSO.State.evals CPSO.State.caller CPSO.State.rng).evals = L.s.evals from rfl, this] at hx
      obtain ⟨j, rfl⟩ := List.mem_ofFn.1 hx
      exact ⟨j, by dsimp only; rw [hobj.pop]; exact hlt⟩
  have := hH.inv (CPSO.I1 P fn) h0 (fun _ _ _ _ _ hI hs => CPSO.I1_step hobj hI hs)
    (fun it _ _ h => CPSO.I1_post hsrt hp it h) L.s (by simp)
  exact this.best

theorem C01_pso [NumFns K] (he : env.Ok) (hsrt : IsArgsort srt) {a : PSO.Args K} [CPSO.FewRestarts K a.toCPSO.p]
    {fn : Vec K a.ndim → Val K} (hfn : a.fn = some fn) {o : Output σ K a.p a.ndim}
    (h : PSO.minimize env R srt fuel a g = .ok o) : ReportsEvaluatedPoint fn o :=
  C01_cpso (a := a.toCPSO) he hsrt hfn h (Or.inl rfl)

theorem C01_na (he : env.Ok) {a : NA.Args K} {fn : Vec K a.ndim → Val K} (hfn : a.fn = some fn)
    {o : Output σ K a.p a.ndim} (h : NA.minimize env R srt fuel a g = .ok o) : ReportsEvaluatedPoint fn o := by
  obtain ⟨fn', P, s0, r, L, hfn', hv, hobj, -, -, -, -, -, -, -, -, hinit, hrun, rfl⟩ := NA.minimize_ok he h
  rw [hfn] at hfn'; cases hfn'
  obtain ⟨l, st, msg, hH, -, -, -, rfl⟩ := run_hist hrun
  have h0 : NA.I1 P fn s0 := by
    obtain ⟨i, hi, rfl⟩ := NA.init_ok hinit
    refine ⟨fun j => Or.inl ⟨(NA.objN_faithful hobj).pop _ _, by simp⟩, False.elim,
      (NA.objN_faithful hobj).pop _ _, by simp⟩
  have := hH.inv (NA.I1 P fn) h0 (fun _ _ _ _ _ hI hs => NA.I1_step hobj hI hs) (fun _ _ _ h => h) L.s (by simp)
  exact this.best

/-! ## C02 -/

theorem C02_de (he : env.Ok) {a : DE.Args K} {fn : Vec K a.ndim → Val K} (hfn : a.fn = some fn)
    {o : Output σ K a.p a.ndim} (h : DE.minimize env R fuel a g = .ok o)
    (hnan : ∀ x ∈ o.evals.take a.p, fn x ≠ .nan) : BestOfRun fn o := by
  obtain ⟨fn', P, s0, r, L, hfn', hv, hobj, -, -, -, -, -, -, -, -, -, hstr, hinit, hrun, rfl⟩ := DE.minimize_ok he h
  rw [hfn] at hfn'; cases hfn'
  have hl := DE.laws (P := P) a.sync hstr
  obtain ⟨l, st, msg, hH, -, -, -, rfl⟩ := run_hist hrun
  have h0 : DE.I2 fn s0 := by
    obtain ⟨i, hi, rfl⟩ := DE.init_ok hinit
    have := hl.ev_take (by simp) hH
    rw [show (mkOut _ L DE.State.evals DE.State.caller DE.State.rng).evals = L.s.evals from rfl, this] at hnan
    refine init_inv2 hi (fun j => hobj.pop _ _) (fun j => ?_) (fun y hy => ?_)
    · dsimp only; rw [hobj.pop]; exact hnan _ (List.mem_ofFn.2 ⟨j, rfl⟩)
    · obtain ⟨j, rfl⟩ := List.mem_ofFn.1 hy; exact ⟨j, rfl⟩
  have := hH.inv (DE.I2 fn) h0 (fun _ _ _ _ _ hI hs => DE.I2_step hobj hI hs) (fun _ _ _ h => h) L.s (by simp)
  exact fun x hx hn => this.all x hx hn

theorem C02_cpso [NumFns K] (he : env.Ok) (hsrt : IsArgsort srt) {a : CPSO.Args K} [CPSO.FewRestarts K a.p]
    {fn : Vec K a.ndim → Val K} (hfn : a.fn = some fn) {o : Output σ K a.p a.ndim}
    (h : CPSO.minimize env R srt fuel a g = .ok o) (hnan : ∀ x ∈ o.evals.take a.p, fn x ≠ .nan)
    (hlow : a.competitivity = none ∨ a.competitivity = some 0 ∨ ∃ x ∈ o.evals.take a.p, fn x < .fin (10 ^ 30)) :
    BestOfRun fn o := by
  obtain ⟨fn', P, s0, r, L, hfn', hv, hobj, -, -, rfl, -, -, -, hgam, -, -, -, -, -, hinit, hrun, rfl⟩ :=
    CPSO.minimize_ok he h
  rw [hfn] at hfn'; cases hfn'
  have hl := CPSO.laws (P := P) (p := a.p) a.sync
  obtain ⟨l, st, msg, hH, -, -, -, rfl⟩ := run_hist hrun
  have hp : 0 < a.p := by have := (CPSO.validate_ok hv).2.2.2.1; show 0 < a.popsize.toNat; omega
  have h0 : CPSO.I1 P fn s0 ∧ CPSO.I2 fn s0 := by
    obtain ⟨i, hi, rfl⟩ := CPSO.init_ok hinit
    have htake := hl.ev_take (by simp) hH
    rw [show (mkOut _ L CPSO.State.evals CPSO.State.caller CPSO.State.rng).evals = L.s.evals from rfl, htake] at hnan
    refine ⟨⟨fun j => Or.inl ⟨hobj.pop _ _, by simp⟩, ?_, hobj.pop _ _, by simp⟩,
      init_inv2 hi (fun j => hobj.pop _ _) (fun j => ?_) (fun y hy => ?_)⟩
    · rintro ⟨gm, hgm, hgm0⟩
      rcases hlow with h | h | ⟨x, hx, hlt⟩
      · rw [hgam, h] at hgm; simp at hgm
      · rw [hgam, h] at hgm; simp at hgm; exact absurd hgm.symm hgm0
      · rw [show (mkOut _ L CPSO.State.evals CPSO.State.caller CPSO.State.rng).evals = L.s.evals from rfl, htake] at hx
        obtain ⟨j, rfl⟩ := List.mem_ofFn.1 hx
        exact ⟨j, by dsimp only; rw [hobj.pop]; exact hlt⟩
    · dsimp only; rw [hobj.pop]; exact hnan _ (List.mem_ofFn.2 ⟨j, rfl⟩)
    · obtain ⟨j, rfl⟩ := List.mem_ofFn.1 hy; exact ⟨j, rfl⟩
  have := hH.inv (fun s => CPSO.I1 P fn s ∧ CPSO.I2 fn s) h0
    (fun _ _ _ _ _ hI hs => ⟨CPSO.I1_step hobj hI.1 hs, CPSO.I2_step hobj hI.2 hs⟩)
    (fun it _ _ h => ⟨CPSO.I1_post hsrt hp it h.1, CPSO.I2_post hsrt hp it h.1 h.2⟩) L.s (by simp)
  exact fun x hx hn => this.2.all x hx hn

theorem C02_pso [NumFns K] (he : env.Ok) (hsrt : IsArgsort srt) {a : PSO.Args K} [CPSO.FewRestarts K a.toCPSO.p]
    {fn : Vec K a.ndim → Val K} (hfn : a.fn = some fn) {o : Output σ K a.p a.ndim}
    (h : PSO.minimize env R srt fuel a g = .ok o) (hnan : ∀ x ∈ o.evals.take a.p, fn x ≠ .nan) : BestOfRun fn o :=
  C02_cpso (a := a.toCPSO) he hsrt hfn h hnan (Or.inl rfl)

theorem C02_na (he : env.Ok) {a : NA.Args K} {fn : Vec K a.ndim → Val K} (hfn : a.fn = some fn)
    {o : Output σ K a.p a.ndim} (h : NA.minimize env R srt fuel a g = .ok o)
    (hnan : ∀ x ∈ o.evals.take a.p, fn x ≠ .nan) : BestOfRun fn o := by
  obtain ⟨fn', P, s0, r, L, hfn', hv, hobj, -, -, -, -, -, -, -, -, hinit, hrun, rfl⟩ := NA.minimize_ok he h
  rw [hfn] at hfn'; cases hfn'
  have hl := NA.laws (P := P) (p := a.p)
  obtain ⟨l, st, msg, hH, -, -, -, rfl⟩ := run_hist hrun
  have h0 : NA.I2 P fn s0 := by
    obtain ⟨i, hi, rfl⟩ := NA.init_ok hinit
    have := hl.ev_take (by simp) hH
    rw [show (mkOut _ L NA.State.evals NA.State.caller NA.State.rng).evals = L.s.evals from rfl, this] at hnan
    have hn' : ∀ j, P.objN.pop (NA.initN P a.x0Pop (a.seeded R g)) j ≠ .nan := by
      intro j; rw [(NA.objN_faithful hobj).pop]; exact hnan _ (List.mem_ofFn.2 ⟨j, rfl⟩)
    have key := init_inv2 (E := fun x => ∃ j, x = NA.initN P a.x0Pop (a.seeded R g) j) hi
      (fun j => (NA.objN_faithful hobj).pop _ _) hn' (fun y hy => hy)
    refine ⟨⟨key.lb, key.att, ?_⟩, ?_⟩
    · intro x hx hxn
      obtain ⟨j, hj⟩ := List.mem_ofFn.1 hx
      have := key.all _ ⟨j, rfl⟩
      unfold NA.fN at this hxn ⊢
      rw [hj] at this
      exact this hxn
    · intro y hy; obtain ⟨j, rfl⟩ := List.mem_ofFn.1 hy; exact ⟨_, rfl⟩
  have := hH.inv (NA.I2 P fn) h0 (fun _ _ _ _ _ hI hs => NA.I2_step hobj hI hs) (fun _ _ _ h => h) L.s (by simp)
  intro x hx hn
  obtain ⟨y, rfl⟩ := this.2 x hx
  exact this.1.all y hx hn

/-! ## C03 -/

theorem C03_de (he : env.Ok) {a : DE.Args K} {o : Output σ K a.p a.ndim}
    (h : DE.minimize env R fuel a g = .ok o) : BestNeverWorsens o := by
  obtain ⟨fn', P, s0, r, L, hfn', hv, hobj, -, -, -, -, -, -, -, -, -, hstr, hinit, hrun, rfl⟩ := DE.minimize_ok he h
  refine run_bestNeverWorsens (DE.laws a.sync hstr) (DE.mono hobj) ?_ hrun
  obtain ⟨i, hi, rfl⟩ := DE.init_ok hinit
  exact init_invM hi

theorem C03_cpso [NumFns K] (he : env.Ok) (hsrt : IsArgsort srt) {a : CPSO.Args K} [CPSO.FewRestarts K a.p]
    {o : Output σ K a.p a.ndim} (h : CPSO.minimize env R srt fuel a g = .ok o) : BestNeverWorsens o := by
  obtain ⟨fn', P, s0, r, L, hfn', hv, hobj, -, -, rfl, -, -, -, hgam, -, -, -, -, -, hinit, hrun, rfl⟩ :=
    CPSO.minimize_ok he h
  have hp : 0 < a.p := by have := (CPSO.validate_ok hv).2.2.2.1; show 0 < a.popsize.toNat; omega
  refine run_bestNeverWorsens (CPSO.laws a.sync) (CPSO.mono hsrt hp hobj) ?_ hrun
  obtain ⟨i, hi, rfl⟩ := CPSO.init_ok hinit
  exact init_invM hi

theorem C03_pso [NumFns K] (he : env.Ok) (hsrt : IsArgsort srt) {a : PSO.Args K} [CPSO.FewRestarts K a.toCPSO.p]
    {o : Output σ K a.p a.ndim} (h : PSO.minimize env R srt fuel a g = .ok o) : BestNeverWorsens o :=
  C03_cpso (a := a.toCPSO) he hsrt h

theorem C03_na (he : env.Ok) {a : NA.Args K} {o : Output σ K a.p a.ndim}
    (h : NA.minimize env R srt fuel a g = .ok o) : BestNeverWorsens o := by
  obtain ⟨fn', P, s0, r, L, hfn', hv, hobj, -, -, -, -, -, -, -, -, hinit, hrun, rfl⟩ := NA.minimize_ok he h
  refine run_bestNeverWorsens NA.laws (NA.mono hobj) ?_ hrun
  obtain ⟨i, hi, rfl⟩ := NA.init_ok hinit
  exact init_invM hi

/-! ## C04 -/

theorem C04_de (he : env.Ok) {a : DE.Args K} {o : Output σ K a.p a.ndim}
    (h : DE.minimize env R fuel a g = .ok o) : CountsExact o := by
  obtain ⟨fn', P, s0, r, L, hfn', hv, hobj, -, -, -, -, -, -, -, -, -, hstr, hinit, hrun, rfl⟩ := DE.minimize_ok he h
  refine run_countsExact (DE.laws a.sync hstr) ?_ hrun
  obtain ⟨i, hi, rfl⟩ := DE.init_ok hinit
  simp

theorem C04_cpso [NumFns K] (he : env.Ok) {a : CPSO.Args K}
    {o : Output σ K a.p a.ndim} (h : CPSO.minimize env R srt fuel a g = .ok o) : CountsExact o := by
  obtain ⟨fn', P, s0, r, L, hfn', hv, hobj, -, -, rfl, -, -, -, hgam, -, -, -, -, -, hinit, hrun, rfl⟩ :=
    CPSO.minimize_ok he h
  refine run_countsExact (CPSO.laws a.sync) ?_ hrun
  obtain ⟨i, hi, rfl⟩ := CPSO.init_ok hinit
  simp

theorem C04_pso [NumFns K] (he : env.Ok) {a : PSO.Args K}
    {o : Output σ K a.p a.ndim} (h : PSO.minimize env R srt fuel a g = .ok o) : CountsExact o :=
  C04_cpso (a := a.toCPSO) he h

theorem C04_na (he : env.Ok) {a : NA.Args K} {o : Output σ K a.p a.ndim}
    (h : NA.minimize env R srt fuel a g = .ok o) : CountsExact o := by
  obtain ⟨fn', P, s0, r, L, hfn', hv, hobj, -, -, -, -, -, -, -, -, hinit, hrun, rfl⟩ := NA.minimize_ok he h
  refine run_countsExact NA.laws ?_ hrun
  obtain ⟨i, hi, rfl⟩ := NA.init_ok hinit
  simp

/-! ## C09 -/

theorem C09_de (he : env.Ok) {a : DE.Args K} {o : Output σ K a.p a.ndim}
    (h : DE.minimize env R fuel a g = .ok o) :
    (a.callback = some true → CallbackProtocol o) ∧ (a.callback = none → o.cbs = []) := by
  obtain ⟨fn', P, s0, r, L, hfn', hv, hobj, -, -, -, -, -, -, -, -, -, hstr, hinit, hrun, rfl⟩ := DE.minimize_ok he h
  exact ⟨fun hc => run_callbackProtocol (by simp [CommonArgs.cfg, hc]) hrun,
    fun hc => run_noCallback (by simp [CommonArgs.cfg, hc]) hrun⟩

theorem C09_cpso [NumFns K] (he : env.Ok) {a : CPSO.Args K}
    {o : Output σ K a.p a.ndim} (h : CPSO.minimize env R srt fuel a g = .ok o) :
    (a.callback = some true → CallbackProtocol o) ∧ (a.callback = none → o.cbs = []) := by
  obtain ⟨fn', P, s0, r, L, hfn', hv, hobj, -, -, rfl, -, -, -, hgam, -, -, -, -, -, hinit, hrun, rfl⟩ :=
    CPSO.minimize_ok he h
  exact ⟨fun hc => run_callbackProtocol (by simp [CommonArgs.cfg, hc]) hrun,
    fun hc => run_noCallback (by simp [CommonArgs.cfg, hc]) hrun⟩

theorem C09_pso [NumFns K] (he : env.Ok) {a : PSO.Args K}
    {o : Output σ K a.p a.ndim} (h : PSO.minimize env R srt fuel a g = .ok o) :
    (a.callback = some true → CallbackProtocol o) ∧ (a.callback = none → o.cbs = []) :=
  C09_cpso (a := a.toCPSO) he h

theorem C09_na (he : env.Ok) {a : NA.Args K} {o : Output σ K a.p a.ndim}
    (h : NA.minimize env R srt fuel a g = .ok o) :
    (a.callback = some true → CallbackProtocol o) ∧ (a.callback = none → o.cbs = []) := by
  obtain ⟨fn', P, s0, r, L, hfn', hv, hobj, -, -, -, -, -, -, -, -, hinit, hrun, rfl⟩ := NA.minimize_ok he h
  exact ⟨fun hc => run_callbackProtocol (by simp [CommonArgs.cfg, hc]) hrun,
    fun hc => run_noCallback (by simp [CommonArgs.cfg, hc]) hrun⟩

/-! ## C10 -/

theorem C10_de (he : env.Ok) {a : DE.Args K} {o : Output σ K a.p a.ndim}
    (h : DE.minimize env R fuel a g = .ok o) :
    (a.returnAll = true → HistoryShape (max 1 (IntParts.ceil (a.verbosity * (a.popsize : K))).toNat) o) ∧
    (a.returnAll = false → o.res.xall = none ∧ o.res.funall = none) := by
  obtain ⟨fn', P, s0, r, L, hfn', hv, hobj, -, -, -, -, -, -, -, -, -, hstr, hinit, hrun, rfl⟩ := DE.minimize_ok he h
  exact ⟨fun hc => run_historyShape (by simp [CommonArgs.cfg, hc]) hrun,
    fun hc => run_noHistory (by simp [CommonArgs.cfg, hc]) hrun⟩

theorem C10_cpso [NumFns K] (he : env.Ok) {a : CPSO.Args K}
    {o : Output σ K a.p a.ndim} (h : CPSO.minimize env R srt fuel a g = .ok o) :
    (a.returnAll = true → HistoryShape (max 1 (IntParts.ceil (a.verbosity * (a.popsize : K))).toNat) o) ∧
    (a.returnAll = false → o.res.xall = none ∧ o.res.funall = none) := by
  obtain ⟨fn', P, s0, r, L, hfn', hv, hobj, -, -, rfl, -, -, -, hgam, -, -, -, -, -, hinit, hrun, rfl⟩ :=
    CPSO.minimize_ok he h
  exact ⟨fun hc => run_historyShape (by simp [CommonArgs.cfg, hc]) hrun,
    fun hc => run_noHistory (by simp [CommonArgs.cfg, hc]) hrun⟩

theorem C10_pso [NumFns K] (he : env.Ok) {a : PSO.Args K}
    {o : Output σ K a.p a.ndim} (h : PSO.minimize env R srt fuel a g = .ok o) :
    (a.returnAll = true → HistoryShape (max 1 (IntParts.ceil (a.verbosity * (a.popsize : K))).toNat) o) ∧
    (a.returnAll = false → o.res.xall = none ∧ o.res.funall = none) :=
  C10_cpso (a := a.toCPSO) he h

theorem C10_na (he : env.Ok) {a : NA.Args K} {o : Output σ K a.p a.ndim}
    (h : NA.minimize env R srt fuel a g = .ok o) :
    (a.returnAll = true → HistoryShape (max 1 (IntParts.ceil (a.verbosity * (a.popsize : K))).toNat) o) ∧
    (a.returnAll = false → o.res.xall = none ∧ o.res.funall = none) := by
  obtain ⟨fn', P, s0, r, L, hfn', hv, hobj, -, -, -, -, -, -, -, -, hinit, hrun, rfl⟩ := NA.minimize_ok he h
  exact ⟨fun hc => run_historyShape (by simp [CommonArgs.cfg, hc]) hrun,
    fun hc => run_noHistory (by simp [CommonArgs.cfg, hc]) hrun⟩

theorem hist5 {p n : Nat} {o : Output Nat ℚ p n} (h : HistoryShape (max 1 ⌈(1 : ℚ) * ((5 : Int) : ℚ)⌉.toNat) o) :
    HistoryShape 5 o := by
  have : max 1 ⌈(1 : ℚ) * ((5 : Int) : ℚ)⌉.toNat = 5 := by decide +kernel
  rwa [this] at h

/-! ### The hypotheses are met

Runs of three generations with five individuals in which the best value strictly improves (`improves`), with
history and callback. -/

/-- All four methods: C01–C04, C09, C10 at once; for `cpso` restarts are switched on. -/
example : (∃ o, DE.minimize Concrete.env rng 10 deArgs 0 = .ok o ∧ improves o = true ∧ ReportsEvaluatedPoint sphere2 o ∧
      BestOfRun sphere2 o ∧ BestNeverWorsens o ∧ CountsExact o ∧ CallbackProtocol o ∧ HistoryShape 5 o) ∧
    (∃ o, PSO.minimize Concrete.env rng stableArgsort 10 psoArgs 0 = .ok o ∧ improves o = true ∧
      ReportsEvaluatedPoint sphere2 o ∧ BestOfRun sphere2 o ∧ BestNeverWorsens o ∧ CountsExact o ∧ CallbackProtocol o ∧
      HistoryShape 5 o) ∧
    (∃ o, NA.minimize Concrete.env rng stableArgsort 10 naArgs 0 = .ok o ∧ improves o = true ∧
      ReportsEvaluatedPoint sphere2 o ∧ BestOfRun sphere2 o ∧ BestNeverWorsens o ∧ CountsExact o ∧ CallbackProtocol o ∧
      HistoryShape 5 o) := by
  obtain ⟨o1, h1, e1⟩ := de_run
  obtain ⟨o2, h2, e2⟩ := pso_run
  obtain ⟨o3, h3, e3⟩ := na_run
  have hn : ∀ x : Vec ℚ 2, sphere2 x ≠ .nan := fun x h => by simp [sphere2] at h
  exact ⟨⟨o1, h1, e1, C01_de env_ok rfl h1, C02_de env_ok rfl h1 (fun x _ => hn x), C03_de env_ok h1, C04_de env_ok h1,
      (C09_de env_ok h1).1 rfl, hist5 ((C10_de env_ok h1).1 rfl)⟩,
    ⟨o2, h2, e2, C01_pso env_ok isArgsort_stable rfl h2, C02_pso env_ok isArgsort_stable rfl h2 (fun x _ => hn x),
      C03_pso env_ok isArgsort_stable h2, C04_pso env_ok h2, (C09_pso env_ok h2).1 rfl, hist5 ((C10_pso env_ok h2).1 rfl)⟩,
    ⟨o3, h3, e3, C01_na env_ok rfl h3, C02_na env_ok rfl h3 (fun x _ => hn x), C03_na env_ok h3, C04_na env_ok h3,
      (C09_na env_ok h3).1 rfl, hist5 ((C10_na env_ok h3).1 rfl)⟩⟩

example : ∃ o, CPSO.minimize Concrete.env rng stableArgsort 10 cpsoArgs 0 = .ok o ∧ cpsoArgs.competitivity = some 1 ∧
    (∃ x ∈ o.evals.take 5, sphere2 x < .fin (10 ^ 30)) ∧ ReportsEvaluatedPoint sphere2 o ∧ BestOfRun sphere2 o ∧
    BestNeverWorsens o ∧ CountsExact o ∧ CallbackProtocol o ∧ HistoryShape 5 o := by
  obtain ⟨o, h, e⟩ := returns_iff (r := CPSO.minimize Concrete.env rng stableArgsort 10 cpsoArgs 0)
    (t := fun o => improves o && (o.evals.take 5).any fun x => decide (sphere2 x < .fin (10 ^ 30))) (by decide +kernel)
  simp only [Bool.and_eq_true, List.any_eq_true, decide_eq_true_eq] at e
  have hn : ∀ x : Vec ℚ 2, sphere2 x ≠ .nan := fun x h => by simp [sphere2] at h
  exact ⟨o, h, rfl, e.2, C01_cpso env_ok isArgsort_stable rfl h (Or.inr (Or.inr e.2)),
    C02_cpso env_ok isArgsort_stable rfl h (fun x _ => hn x) (Or.inr (Or.inr e.2)), C03_cpso env_ok isArgsort_stable h,
    C04_cpso env_ok h, (C09_cpso env_ok h).1 rfl, hist5 ((C10_cpso env_ok h).1 rfl)⟩

end Stochopy
