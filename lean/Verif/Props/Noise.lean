import Verif.Lemmas.Noise
import Verif.Props.EvoRuns

/-!
# C93: objectives with noise or state

`minimizeAns … ans` is `minimize` for an objective whose `k`-th answer for the point `x` is `ans k x` (`Model/Noise.lean`): the same
point may get another answer the next time.
-/

set_option linter.unusedSectionVars false

namespace Stochopy
open Spec Concrete
variable {K σ : Type} [AddZeroClass K] [One K] [Sub K] [Mul K] [Div K] [Neg K] [NatCast K] [IntCast K] [Pow K ℕ] [ArrayOps K] [LinearOrder K] [IntParts K]
variable {env : Env} {R : Rng σ K} {srt : Argsort K} {fuel : Nat} {g : σ}

/-! ## An objective that is a function: nothing changes -/

theorem C93_same_de (he : env.Ok) {a : DE.Args K} {fn : Vec K a.ndim → Val K} (hfn : a.fn = some fn) :
    DE.minimizeAns env R fuel a (fun _ => fn) g = DE.minimize env R fuel a g := by
  unfold DE.minimizeAns DE.minimize
  rw [hfn]
  congr 1
  funext strat
  exact optimizer_same he fun obj hobj =>
    congrArg _ (funext fun _ => congrArg _ (funext fun _ => DE.deAns_const hobj _ _ _ _ _))

theorem C93_same_cpso [NumFns K] (he : env.Ok) {a : CPSO.Args K} {fn : Vec K a.ndim → Val K} (hfn : a.fn = some fn) :
    CPSO.minimizeAns env R srt fuel a (fun _ => fn) g = CPSO.minimize env R srt fuel a g := by
  unfold CPSO.minimizeAns CPSO.minimize
  rw [hfn]
  congr 1
  funext u
  exact optimizer_same he fun obj hobj =>
    congrArg _ (funext fun _ => congrArg _ (funext fun _ => CPSO.cpsoAns_const hobj _ _ _ _ _))

theorem C93_same_pso [NumFns K] (he : env.Ok) {a : PSO.Args K} {fn : Vec K a.ndim → Val K} (hfn : a.fn = some fn) :
    PSO.minimizeAns env R srt fuel a (fun _ => fn) g = PSO.minimize env R srt fuel a g :=
  C93_same_cpso (a := a.toCPSO) he hfn

theorem C93_same_na (he : env.Ok) {a : NA.Args K} {fn : Vec K a.ndim → Val K} (hfn : a.fn = some fn) :
    NA.minimizeAns env R srt fuel a (fun _ => fn) g = NA.minimize env R srt fuel a g := by
  unfold NA.minimizeAns NA.minimize
  rw [hfn]
  congr 1
  funext u
  exact optimizer_same he fun obj hobj =>
    congrArg _ (funext fun _ => NA.naAns_const hobj _ _ _ _)

/-! ## The reported value is an answer for the reported point -/

theorem C93_answer_de (he : env.Ok) {a : DE.Args K} {ans : Nat → Vec K a.ndim → Val K} {o : Output σ K a.p a.ndim}
    (h : DE.minimizeAns env R fuel a ans g = .ok o) : ReportsAnswers ans o := by
  obtain ⟨P, s0, r, L, hv, hstr, hinit, hrun, rfl⟩ := DE.minimizeAns_ok he h
  obtain ⟨i, hi, hs0⟩ := DE.init_ok hinit
  have h0 : DE.I1A ans s0 := by
    rw [hs0]
    exact ⟨fun j => Or.inl (answered_first _ j), False.elim, answered_first _ i⟩
  obtain ⟨h1, h2⟩ := run_reports (DE.lawsAns a.sync hstr) (by rw [hs0]; exact List.length_ofFn) hrun (Q := Answered ans)
    (fun hH s hs => (hH.inv (DE.I1A ans) h0 (fun _ _ _ _ _ hI hs => DE.I1A_step hI hs) (fun _ _ _ h => h) s hs).best)
  exact ⟨h1, h2⟩

theorem CPSO.first_answers [NumFns K] {a : CPSO.Args K} {ans : Nat → Vec K a.ndim → Val K} {P : CPSO.Par σ K a.ndim}
    {s0 : CPSO.State σ K a.p a.ndim} {r : Result K a.ndim} {L : Loop (CPSO.State σ K a.p a.ndim) K a.p a.ndim}
    (hgam : P.gamma = a.competitivity) (hinit : CPSO.init (P.from ans 0) a.x0Pop (a.seeded R g) = .ok s0)
    (hrun : (CPSO.algAns ans P a.sync).run a.cfg fuel s0 = .ok (r, L))
    (hlow : a.competitivity = none ∨ a.competitivity = some 0 ∨
      ∃ k x, k < a.p ∧ L.s.evals[k]? = some x ∧ ans k x < .fin (10 ^ 30)) : CPSO.I1A P ans s0 := by
  obtain ⟨l, st, msg, hH, -, -, -, -⟩ := run_hist hrun
  have htake := (CPSO.lawsAns (ans := ans) (P := P) (p := a.p) a.sync).ev_take (by
    obtain ⟨i, hi, rfl⟩ := CPSO.init_ok hinit; exact List.length_ofFn) hH
  obtain ⟨i, hi, hs0⟩ := CPSO.init_ok hinit
  rw [hs0] at htake ⊢
  refine ⟨fun j => Or.inl (answered_first _ j), ?_, answered_first _ i⟩
  rintro ⟨gm, hgm, hgm0⟩
  rcases hlow with h | h | h
  · rw [hgam, h] at hgm; simp at hgm
  · rw [hgam, h] at hgm; simp at hgm; exact absurd hgm.symm hgm0
  · exact first_low htake h

/-- For `cpso` some answer for the initial population must be below `1e30` (the value written into restarted particles), unless
restarts are switched off. -/
theorem C93_answer_cpso [NumFns K] (he : env.Ok) (hsrt : IsArgsort srt) {a : CPSO.Args K} [CPSO.FewRestarts K a.p]
    {ans : Nat → Vec K a.ndim → Val K} {o : Output σ K a.p a.ndim} (h : CPSO.minimizeAns env R srt fuel a ans g = .ok o)
    (hlow : a.competitivity = none ∨ a.competitivity = some 0 ∨
      ∃ k x, k < a.p ∧ o.evals[k]? = some x ∧ ans k x < .fin (10 ^ 30)) : ReportsAnswers ans o := by
  obtain ⟨P, s0, r, L, hv, rfl, hgam, hinit, hrun, rfl⟩ := CPSO.minimizeAns_ok he h
  have hp : 0 < a.p := by have := (CPSO.validate_ok hv).2.2.2.1; show 0 < a.popsize.toNat; omega
  have h0 := CPSO.first_answers hgam hinit hrun hlow
  obtain ⟨h1, h2⟩ := run_reports (CPSO.lawsAns a.sync) (by obtain ⟨i, hi, rfl⟩ := CPSO.init_ok hinit; exact List.length_ofFn) hrun (Q := Answered ans)
    (fun hH s hs => (hH.inv (CPSO.I1A P ans) h0 (fun _ _ _ _ _ hI hs => CPSO.I1A_step hI hs)
      (fun it _ _ h => CPSO.I1A_post hsrt hp it h) s hs).best)
  exact ⟨h1, h2⟩

theorem C93_answer_pso [NumFns K] (he : env.Ok) (hsrt : IsArgsort srt) {a : PSO.Args K} [CPSO.FewRestarts K a.toCPSO.p]
    {ans : Nat → Vec K a.ndim → Val K} {o : Output σ K a.p a.ndim} (h : PSO.minimizeAns env R srt fuel a ans g = .ok o) :
    ReportsAnswers ans o :=
  C93_answer_cpso (a := a.toCPSO) he hsrt h (Or.inl rfl)

theorem C93_answer_na (he : env.Ok) {a : NA.Args K} {ans : Nat → Vec K a.ndim → Val K} {o : Output σ K a.p a.ndim}
    (h : NA.minimizeAns env R srt fuel a ans g = .ok o) : ReportsAnswers ans o := by
  obtain ⟨P, s0, r, L, hinit, hrun, rfl⟩ := NA.minimizeAns_ok he h
  obtain ⟨i, hi, hs0⟩ := NA.init_ok hinit
  have h0 : NA.I1A P ans s0 := by
    rw [hs0]
    exact ⟨fun j => Or.inl (answered_first _ j), False.elim, answered_first _ i⟩
  obtain ⟨h1, h2⟩ := run_reports NA.lawsAns (by rw [hs0]; exact List.length_ofFn) hrun (Q := Answered ans)
    (fun hH s hs => (hH.inv (NA.I1A P ans) h0 (fun _ _ _ _ _ hI hs => NA.I1A_step hI hs) (fun _ _ _ h => h) s hs).best)
  exact ⟨h1, h2⟩

/-! ## The reported value is the smallest answer of the run -/

theorem C93_best_de (he : env.Ok) {a : DE.Args K} {ans : Nat → Vec K a.ndim → Val K} {o : Output σ K a.p a.ndim}
    (h : DE.minimizeAns env R fuel a ans g = .ok o) (hnan : FirstAnswersNumbers ans o) : BestAnswer ans o := by
  obtain ⟨P, s0, r, L, hv, hstr, hinit, hrun, rfl⟩ := DE.minimizeAns_ok he h
  obtain ⟨i, hi, hs0⟩ := DE.init_ok hinit
  have hl := DE.lawsAns (ans := ans) (P := P) a.sync hstr
  have h0 : DE.I2A ans s0 := by
    obtain ⟨l, st, msg, hH, -, -, -, -⟩ := run_hist hrun
    have htake := hl.ev_take (by rw [hs0]; exact List.length_ofFn) hH
    rw [hs0] at htake ⊢
    exact first_inv2A hi htake hnan
  obtain ⟨h1, h2⟩ := run_reports hl (by rw [hs0]; exact List.length_ofFn) hrun
    (Q := fun evs _ v => ∀ k x, evs[k]? = some x → ans k x ≠ .nan → v ≤ ans k x)
    (fun hH s hs k x hk hn => (hH.inv (DE.I2A ans) h0 (fun _ _ _ _ _ hI hs => DE.I2A_step hI hs) (fun _ _ _ h => h) s hs).all _
      ⟨x, k, hk, rfl⟩ hn)
  exact ⟨h1, fun b hb k x hlt hk hn => h2 b hb k x (by rw [List.getElem?_take_of_lt hlt]; exact hk) hn⟩

theorem C93_best_cpso [NumFns K] (he : env.Ok) (hsrt : IsArgsort srt) {a : CPSO.Args K} [CPSO.FewRestarts K a.p]
    {ans : Nat → Vec K a.ndim → Val K} {o : Output σ K a.p a.ndim} (h : CPSO.minimizeAns env R srt fuel a ans g = .ok o)
    (hnan : FirstAnswersNumbers ans o)
    (hlow : a.competitivity = none ∨ a.competitivity = some 0 ∨
      ∃ k x, k < a.p ∧ o.evals[k]? = some x ∧ ans k x < .fin (10 ^ 30)) : BestAnswer ans o := by
  obtain ⟨P, s0, r, L, hv, rfl, hgam, hinit, hrun, rfl⟩ := CPSO.minimizeAns_ok he h
  have hp : 0 < a.p := by have := (CPSO.validate_ok hv).2.2.2.1; show 0 < a.popsize.toNat; omega
  have h01 := CPSO.first_answers hgam hinit hrun hlow
  obtain ⟨i, hi, hs0⟩ := CPSO.init_ok hinit
  have hl := CPSO.lawsAns (ans := ans) (P := P) (p := a.p) a.sync
  have h0 : CPSO.I2A ans s0 := by
    obtain ⟨l, st, msg, hH, -, -, -, -⟩ := run_hist hrun
    have htake := hl.ev_take (by rw [hs0]; exact List.length_ofFn) hH
    rw [hs0] at htake ⊢
    exact first_inv2A hi htake hnan
  obtain ⟨h1, h2⟩ := run_reports hl (by rw [hs0]; exact List.length_ofFn) hrun
    (Q := fun evs _ v => ∀ k x, evs[k]? = some x → ans k x ≠ .nan → v ≤ ans k x)
    (fun hH s hs k x hk hn => (hH.inv (fun s => CPSO.I1A P ans s ∧ CPSO.I2A ans s) ⟨h01, h0⟩
      (fun _ _ _ _ _ hI hs => ⟨CPSO.I1A_step hI.1 hs, CPSO.I2A_step hI.2 hs⟩)
      (fun it _ _ h => ⟨CPSO.I1A_post hsrt hp it h.1, CPSO.I2A_post hsrt hp it h.1 h.2⟩) s hs).2.all _ ⟨x, k, hk, rfl⟩ hn)
  exact ⟨h1, fun b hb k x hlt hk hn => h2 b hb k x (by rw [List.getElem?_take_of_lt hlt]; exact hk) hn⟩

theorem C93_best_pso [NumFns K] (he : env.Ok) (hsrt : IsArgsort srt) {a : PSO.Args K} [CPSO.FewRestarts K a.toCPSO.p]
    {ans : Nat → Vec K a.ndim → Val K} {o : Output σ K a.p a.ndim} (h : PSO.minimizeAns env R srt fuel a ans g = .ok o)
    (hnan : FirstAnswersNumbers ans o) : BestAnswer ans o :=
  C93_best_cpso (a := a.toCPSO) he hsrt h hnan (Or.inl rfl)

theorem C93_best_na (he : env.Ok) {a : NA.Args K} {ans : Nat → Vec K a.ndim → Val K} {o : Output σ K a.p a.ndim}
    (h : NA.minimizeAns env R srt fuel a ans g = .ok o) (hnan : FirstAnswersNumbers ans o) : BestAnswer ans o := by
  obtain ⟨P, s0, r, L, hinit, hrun, rfl⟩ := NA.minimizeAns_ok he h
  obtain ⟨i, hi, hs0⟩ := NA.init_ok hinit
  have hl := NA.lawsAns (ans := ans) (P := P) (p := a.p)
  have h0 : NA.I2A ans s0 := by
    obtain ⟨l, st, msg, hH, -, -, -, -⟩ := run_hist hrun
    have htake := hl.ev_take (by rw [hs0]; exact List.length_ofFn) hH
    rw [hs0] at htake ⊢
    exact first_inv2A hi htake hnan
  obtain ⟨h1, h2⟩ := run_reports hl (by rw [hs0]; exact List.length_ofFn) hrun
    (Q := fun evs _ v => ∀ k x, evs[k]? = some x → ans k x ≠ .nan → v ≤ ans k x)
    (fun hH s hs k x hk hn => (hH.inv (NA.I2A ans) h0 (fun _ _ _ _ _ hI hs => NA.I2A_step hI hs) (fun _ _ _ h => h) s hs).all _
      ⟨x, k, hk, rfl⟩ hn)
  exact ⟨h1, fun b hb k x hlt hk hn => h2 b hb k x (by rw [List.getElem?_take_of_lt hlt]; exact hk) hn⟩

/-! ## The best value never worsens, the counts are exact -/

theorem C93_mono_de (he : env.Ok) {a : DE.Args K} {ans : Nat → Vec K a.ndim → Val K} {o : Output σ K a.p a.ndim}
    (h : DE.minimizeAns env R fuel a ans g = .ok o) : BestNeverWorsens o ∧ CountsExact o := by
  obtain ⟨P, s0, r, L, hv, hstr, hinit, hrun, rfl⟩ := DE.minimizeAns_ok he h
  obtain ⟨i, hi, hs0⟩ := DE.init_ok hinit
  exact ⟨run_bestNeverWorsens (DE.lawsAns a.sync hstr) DE.monoAns (by rw [hs0]; exact init_invM hi) hrun,
    run_countsExact (DE.lawsAns a.sync hstr) (by rw [hs0]; exact List.length_ofFn) hrun⟩

theorem C93_mono_cpso [NumFns K] (he : env.Ok) (hsrt : IsArgsort srt) {a : CPSO.Args K} [CPSO.FewRestarts K a.p]
    {ans : Nat → Vec K a.ndim → Val K} {o : Output σ K a.p a.ndim} (h : CPSO.minimizeAns env R srt fuel a ans g = .ok o) :
    BestNeverWorsens o ∧ CountsExact o := by
  obtain ⟨P, s0, r, L, hv, rfl, hgam, hinit, hrun, rfl⟩ := CPSO.minimizeAns_ok he h
  have hp : 0 < a.p := by have := (CPSO.validate_ok hv).2.2.2.1; show 0 < a.popsize.toNat; omega
  obtain ⟨i, hi, hs0⟩ := CPSO.init_ok hinit
  exact ⟨run_bestNeverWorsens (CPSO.lawsAns a.sync) (CPSO.monoAns hsrt hp) (by rw [hs0]; exact init_invM hi) hrun,
    run_countsExact (CPSO.lawsAns a.sync) (by rw [hs0]; exact List.length_ofFn) hrun⟩

theorem C93_mono_pso [NumFns K] (he : env.Ok) (hsrt : IsArgsort srt) {a : PSO.Args K} [CPSO.FewRestarts K a.toCPSO.p]
    {ans : Nat → Vec K a.ndim → Val K} {o : Output σ K a.p a.ndim} (h : PSO.minimizeAns env R srt fuel a ans g = .ok o) :
    BestNeverWorsens o ∧ CountsExact o :=
  C93_mono_cpso (a := a.toCPSO) he hsrt h

theorem C93_mono_na (he : env.Ok) {a : NA.Args K} {ans : Nat → Vec K a.ndim → Val K} {o : Output σ K a.p a.ndim}
    (h : NA.minimizeAns env R srt fuel a ans g = .ok o) : BestNeverWorsens o ∧ CountsExact o := by
  obtain ⟨P, s0, r, L, hinit, hrun, rfl⟩ := NA.minimizeAns_ok he h
  obtain ⟨i, hi, hs0⟩ := NA.init_ok hinit
  exact ⟨run_bestNeverWorsens NA.lawsAns NA.monoAns (by rw [hs0]; exact init_invM hi) hrun,
    run_countsExact NA.lawsAns (by rw [hs0]; exact List.length_ofFn) hrun⟩

/-! ## cmaes and vdcma, without constraints -/

section evo
open Evo
variable [NumFns K] {eigh : CMAES.Eigh K} {a : Evo.Args K} {junk : Vec K a.ndim} {o : Output σ K a.p a.ndim}

theorem C93_same_cmaes (he : env.Ok) {fn : Vec K a.ndim → Val K} (hfn : a.fn = some fn) :
    CMAES.minimizeAns env R srt eigh fuel a (fun _ => fn) junk g = CMAES.minimize env R srt eigh fuel a junk g := by
  unfold CMAES.minimizeAns CMAES.minimize
  rw [hfn]
  congr 1
  funext u
  refine optimizer_same he fun obj hobj => congrArg _ (funext fun _ => congrArg _ (funext fun _ => congrArg _ (funext fun _ => ?_)))
  by_cases hd : 0 < a.ndim ∧ 0 < a.p ∧ 0 < a.mu ∧ a.mu ≤ a.p
  · rw [dif_pos hd, dif_pos hd]; exact runAns_const hobj _ _ _
  · rw [dif_neg hd, dif_neg hd]

theorem C93_same_vdcma (he : env.Ok) {fn : Vec K a.ndim → Val K} (hfn : a.fn = some fn) :
    VDCMA.minimizeAns env R srt fuel a (fun _ => fn) junk g = VDCMA.minimize env R srt fuel a junk g := by
  unfold VDCMA.minimizeAns VDCMA.minimize
  rw [hfn]
  congr 1
  funext u
  refine optimizer_same he fun obj hobj => congrArg _ (funext fun _ => congrArg _ (funext fun _ => congrArg _ (funext fun _ => ?_)))
  by_cases hd : 0 < a.ndim ∧ 0 < a.p ∧ 0 < a.mu ∧ a.mu ≤ a.p
  · rw [dif_pos hd, dif_pos hd]; exact runAns_const hobj _ _ _
  · rw [dif_neg hd, dif_neg hd]

/-- `cmaes` reports the smallest answer of its last generation (of the run: false already without noise, `C38_violated`). -/
theorem C93_answer_cmaes (he : env.Ok) (hsrt : IsArgsort srt) {ans : Nat → Vec K a.ndim → Val K} (hc0 : a.constraints = none)
    (h : CMAES.minimizeAns env R srt eigh fuel a ans junk g = .ok o) : ReportsAnswers ans o ∧ BestAnswerOfLastGeneration ans o := by
  obtain ⟨obj, pen, m, hd, hc, hrun⟩ := CMAES.minimizeAns_ok he h
  exact runAns_reports (P := a.par srt obj pen) (consMap_none hc0 hc) hsrt hrun

theorem C93_answer_vdcma (he : env.Ok) (hsrt : IsArgsort srt) {ans : Nat → Vec K a.ndim → Val K} (hc0 : a.constraints = none)
    (h : VDCMA.minimizeAns env R srt fuel a ans junk g = .ok o) : ReportsAnswers ans o ∧ BestAnswerOfLastGeneration ans o := by
  obtain ⟨obj, pen, m, hd, hc, hrun⟩ := VDCMA.minimizeAns_ok he h
  exact runAns_reports (P := a.par srt obj pen) (consMap_none hc0 hc) hsrt hrun

theorem C93_counts_cmaes (he : env.Ok) {ans : Nat → Vec K a.ndim → Val K}
    (h : CMAES.minimizeAns env R srt eigh fuel a ans junk g = .ok o) : CountsExact o := by
  obtain ⟨obj, pen, m, hd, hc, hrun⟩ := CMAES.minimizeAns_ok he h
  exact runAns_counts hrun

theorem C93_counts_vdcma (he : env.Ok) {ans : Nat → Vec K a.ndim → Val K}
    (h : VDCMA.minimizeAns env R srt fuel a ans junk g = .ok o) : CountsExact o := by
  obtain ⟨obj, pen, m, hd, hc, hrun⟩ := VDCMA.minimizeAns_ok he h
  exact runAns_counts hrun

end evo

/-! ## Runs

The answer grows with the number of requests, by a thousandth each time: an objective with a state. -/

/-- The shifted sphere function and a thousandth of the number of requests made so far. -/
def Concrete.drift (k : Nat) (x : Vec ℚ 2) : Val ℚ := .fin ((x 0 - 3 / 5) * (x 0 - 3 / 5) + (x 1 + 1 / 2) * (x 1 + 1 / 2) + mkRat k 1000)

/-- The value reported is not what the objective would answer at the first request: the answers matter. -/
def Concrete.drifted {p : Nat} (o : Output Nat ℚ p 2) : Bool :=
  improves o && decide (Concrete.drift 0 o.res.x < o.res.fval)

theorem C93_runs :
    (∃ o, DE.minimizeAns Concrete.env rng 10 deArgs drift 0 = .ok o ∧ drifted o = true) ∧
    (∃ o, CPSO.minimizeAns Concrete.env rng stableArgsort 10 cpsoArgs drift 0 = .ok o ∧ drifted o = true) ∧
    (∃ o, PSO.minimizeAns Concrete.env rng stableArgsort 10 psoArgs drift 0 = .ok o ∧ drifted o = true) ∧
    (∃ o, NA.minimizeAns Concrete.env rng stableArgsort 10 naArgs drift 0 = .ok o ∧ drifted o = true) ∧
    (∃ o, CMAES.minimizeAns Concrete.env rng stableArgsort eighDiag 10 evoArgs drift junk0 0 = .ok o ∧ drifted o = true) ∧
    (∃ o, VDCMA.minimizeAns Concrete.env rng stableArgsort 10 evoArgs drift junk0 0 = .ok o ∧ drifted o = true) :=
  ⟨returns_iff (by decide +kernel), returns_iff (by decide +kernel), returns_iff (by decide +kernel), returns_iff (by decide +kernel),
    returns_iff (by decide +kernel), returns_iff (by decide +kernel)⟩

end Stochopy
