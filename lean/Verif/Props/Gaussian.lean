import Verif.Lemmas.CMAES
import Verif.Lemmas.EvoValid
import Verif.Props.EvoRuns

/-!
# `cmaes`: parameters, covariance matrix, sampling, argument validation
-/

set_option linter.unusedSectionVars false

namespace Stochopy.Props
open Evo Spec Concrete

section
variable {K σ : Type} [Field K] [LinearOrder K] [IsStrictOrderedRing K] [NumFns K] [LawfulNumFns K] [FloorRing K] {env : Env}
  {R : Rng σ K} {srt : Argsort K} {eigh : CMAES.Eigh K} {fuel : Nat} {g : σ} {a : Args K} {junk : Vec K a.ndim}

/-! ## C35 -/

/-- Number of parents and recombination weights. -/
theorem C35_weights (hp : 0 < a.popsize) (h1 : 1 ≤ a.muperc * (a.popsize : K)) (hm : a.muperc ≤ 1) :
    1 ≤ a.mu ∧ a.mu ≤ a.p ∧ (a.mu : K) ≤ a.muperc * (a.popsize : K) ∧ a.muperc * (a.popsize : K) < (a.mu : K) + 1 ∧
    (∀ k, 0 < weights (K := K) a.mu k) ∧ (∀ i j, i < j → weights (K := K) a.mu j < weights a.mu i) ∧
    ∑ k, weights (K := K) a.mu k = 1 ∧
    mueff (K := K) a.mu = 1 / ∑ k, weights (K := K) a.mu k ^ 2 ∧ 1 ≤ mueff (K := K) a.mu ∧ mueff (K := K) a.mu ≤ (a.mu : K) := by
  obtain ⟨h2, h3⟩ := mu_range hp h1 hm
  obtain ⟨h4, h5⟩ := mu_floor hp h1
  exact ⟨h2, h3, h4, h5, weights_pos, fun _ _ => weights_lt, weights_sum h2, mueff_eq h2, one_le_mueff h2, mueff_le h2⟩

/-- Learning rates, for every number of dimensions and parents. -/
theorem C35_rates {n mu : Nat} (hn : 1 ≤ n) (hmu : 1 ≤ mu) (me : K) (hme : me = mueff mu) :
    0 < CMAES.cs n me ∧ CMAES.cs n me < 1 ∧ 0 < cc n me ∧ cc n me < 1 ∧ 0 < CMAES.c1 n me ∧ CMAES.c1 n me < 1 ∧
    0 ≤ CMAES.cmu n me ∧ CMAES.c1 n me + CMAES.cmu n me ≤ 1 ∧ 1 < CMAES.damps n me ∧ 0 < CMAES.chind (K := K) n ∧
    ((mu : K) < ((n : K) + 13 / 10) ^ 2 → CMAES.c1 n me + CMAES.cmu n me < 1) := by
  have h := one_le_mueff (K := K) hmu
  rw [hme]
  exact ⟨CMAES.cs_pos h, CMAES.cs_lt_one h, cc_pos hn h, cc_lt_one hn h, CMAES.c1_pos h, CMAES.c1_lt_one hn h,
    CMAES.cmu_nonneg hn h, CMAES.c1_add_cmu_le _ _, CMAES.one_lt_damps h, CMAES.chind_pos hn,
    fun hlt => CMAES.c1_add_cmu_lt h (lt_of_le_of_lt (mueff_le hmu) hlt)⟩

/-- The default of five parents (`popsize=10`, `muperc=0.5`) is below the bound in every dimension. -/
example {n : Nat} (hn : 1 ≤ n) : ((5 : Nat) : K) < ((n : K) + 13 / 10) ^ 2 := by
  have : (1 : K) ≤ n := by exact_mod_cast hn
  push_cast
  nlinarith

example : evoArgs.mu = 3 ∧ 1 ≤ evoArgs.muperc * (evoArgs.popsize : ℚ) := by decide +kernel

/-! ## C36 -/

/-- Every state of the loop. -/
theorem C36_loop {p n : Nat} {Q : Evo.Par K n} {P : CMAES.Par σ K p n} {c : Cfg} {m x : Vec K n} {sigma : K} (hn : 1 ≤ n)
    (hmu : 1 ≤ P.mu) (hs : 0 < sigma) {L : St (CMAES.State σ K n) K p n}
    (h : Reach Q (CMAES.gauss P) c (CMAES.start m x sigma g) L) :
    Sym L.s.C ∧ PosSemi L.s.C ∧
    (CMAES.c1 n (mueff (K := K) P.mu) + CMAES.cmu n (mueff P.mu) < 1 → PosDef L.s.C) ∧ 0 < L.s.sigma := by
  have hV := CMAES.reach_valid hn hmu hs h
  exact ⟨hV.sym, hV.semi, hV.pos, hV.sigma⟩

/-- The loop of a call is the loop of the theorem. -/
theorem C36_cmaes (he : env.Ok) {o : Output σ K a.p a.ndim} (h : CMAES.minimize env R srt eigh fuel a junk g = .ok o) :
    ∃ (P : CMAES.Par σ K a.p a.ndim) (Q : Evo.Par K a.ndim) (m : Vec K a.ndim × σ) (Ls : List (St (CMAES.State σ K a.ndim) K a.p a.ndim)),
      Ls.length = o.res.nit ∧
      (∀ L ∈ Ls, Reach Q (CMAES.gauss P) a.cfg (CMAES.start m.1 junk a.sigma m.2) L) ∧
      (∀ k L, Ls[k]? = some L → L.it = k + 1 ∧ L.evals <+: o.evals ∧ L.evals.length = (k + 1) * a.p ∧
        Sym L.s.C ∧ PosSemi L.s.C ∧ 0 < L.s.sigma) := by
  obtain ⟨fn, obj, pen, m, hd, hfn, hv, hobj, hb, hc, hm, hrun⟩ := CMAES.minimize_ok he h
  obtain ⟨-, -, -, v4, -, -⟩ := validate_ok_iff.1 hv
  obtain ⟨Ls, h1, h2, h3⟩ := Evo.run_states hrun
  refine ⟨_, _, m, Ls, h1, h2, fun k L hk => ?_⟩
  have hV := CMAES.reach_valid hd.1 hd.2.2.1 v4 (h2 L (List.mem_of_getElem? hk))
  exact ⟨(h3 k L hk).1, (h3 k L hk).2.1, (h3 k L hk).2.2, hV.sym, hV.semi, hV.sigma⟩

/-! ## C66: argument validation -/

/-- Every exception is justified by the arguments. -/
theorem C66_cmaes_error (he : env.Ok) (hs : IsArgsort srt) (heig : IsEigh eigh) (hf : 0 < fuel) (hfuel : a.maxiter ≤ fuel)
    (hS : Sizes a) (hw : a.muperc * (a.popsize : K) < ((a.bounds.len : K) + 13 / 10) ^ 2)
    (hfin : a.constraints = some "Penalize" → ∀ fn, a.fn = some fn → FiniteValued fn) {e : PyErr}
    (h : CMAES.minimize env R srt eigh fuel a junk g = .error e) : MisuseEvo env a e := by
  rcases minimize_error (G := fun hmu => CMAES.gauss { R := R, srt := srt, eigh := eigh, mu := a.mu, hmu := hmu })
    (rng := CMAES.State.rng) (s0 := fun m => CMAES.start m.1 junk a.sigma m.2) he hS hf hfuel h with
    h | ⟨fn, obj, pen, m, L, hmu, hfn, hobj, hv, hpen, hm, hL, -, hF⟩
  · exact h
  · obtain ⟨-, -, -, v4, v5, -⟩ := validate_ok_iff.1 hv
    obtain ⟨m1, m2⟩ := mu_bounds hS v5.2
    have hp : 0 < a.p := by omega
    have hmue := one_le_mueff (K := K) m1
    have hlt : mueff (K := K) a.mu < ((a.ndim : K) + 13 / 10) ^ 2 :=
      lt_of_le_of_lt ((mueff_le m1).trans (mu_floor hS.popsize hS.parents).1) hw
    exact absurd hF (CMAES.no_fail (P := { R := R, srt := srt, eigh := eigh, mu := a.mu, hmu := hmu }) hobj hs
      (fun hp => hfin ((consMap_ok hpen).2.1 hp) fn hfn) (mueff_pos m1) heig hS.dim hp m1 (CMAES.c1_add_cmu_lt hmue hlt) v4 hL)

/-- A call returns if and only if its arguments are valid. -/
theorem C66_cmaes (he : env.Ok) (hs : IsArgsort srt) (heig : IsEigh eigh) (hf : 0 < fuel) (hfuel : a.maxiter ≤ fuel) (hS : Sizes a)
    (hw : a.muperc * (a.popsize : K) < ((a.bounds.len : K) + 13 / 10) ^ 2)
    (hfin : a.constraints = some "Penalize" → ∀ fn, a.fn = some fn → FiniteValued fn) :
    (∃ o, CMAES.minimize env R srt eigh fuel a junk g = .ok o) ↔ ValidEvo env a := by
  constructor
  · rintro ⟨o, h⟩
    exact (valid_of_ok (G := fun hmu => CMAES.gauss { R := R, srt := srt, eigh := eigh, mu := a.mu, hmu := hmu })
      (rng := CMAES.State.rng) (s0 := fun m => CMAES.start m.1 junk a.sigma m.2) h).1
  · intro hv
    cases h : CMAES.minimize env R srt eigh fuel a junk g with
    | ok o => exact ⟨o, rfl⟩
    | error e =>
      exact absurd (C66_cmaes_error he hs heig hf hfuel hS hw hfin h) hv.not_misuse

/-- Checks that come before the objective is called. -/
theorem C66_cmaes_callable (h : a.fn = none) : CMAES.minimize env R srt eigh fuel a junk g = .error .typeError := by
  unfold CMAES.minimize Args.validate
  simp [h]

end

/-! ## C65: the sampling distribution -/

section
variable {σ : Type}

/-- Every generation is drawn as `xmean + sigma * A z` from standard normal `z`, where `A Aᵀ` is the covariance matrix of
an earlier (or the current) state, at most the documented number of evaluations ago. -/
theorem C65_cmaes {p n : Nat} {Q : Evo.Par ℝ n} {P : CMAES.Par σ ℝ p n} {c : Cfg} {m x : Vec ℝ n} {sigma : ℝ} {g : σ} (he : IsEigh P.eigh)
    (hn : 1 ≤ n) (hmu : 1 ≤ P.mu) {L : St (CMAES.State σ ℝ n) ℝ p n} (h : Reach Q (CMAES.gauss P) c (CMAES.start m x sigma g) L) :
    ∃ (A : Matrix (Fin n) (Fin n) ℝ) (L0 : St (CMAES.State σ ℝ n) ℝ p n),
      Reach Q (CMAES.gauss P) c (CMAES.start m x sigma g) L0 ∧ A * A.transpose = L0.s.C ∧
      L0.nfev ≤ L.nfev ∧
      (L.nfev ≠ 0 → (((L.nfev - L0.nfev : Nat) : ℝ) ≤
        (p : ℝ) / (CMAES.c1 n (mueff P.mu) + CMAES.cmu n (mueff P.mu)) / (n : ℝ) / 10)) ∧
      L.s.invsqrtC * L0.s.C * L.s.invsqrtC = 1 ∧
      ∃ s', (CMAES.gauss P).sample L.s = .ok
        (fun i j => L.s.xmean j + L.s.sigma * (A.mulVec ((drawMat P.R.randn p n L.s.rng).1 i)) j, s') := by
  obtain ⟨L0, r0, e0, hle, hst, hA⟩ := CMAES.reach_axes he hn hmu h
  refine ⟨fun i j => L.s.B i j * L.s.D j, L0, r0, ?_, by omega, fun h0 => ?_, hA.whitens, ?_⟩
  · ext i j
    rw [hA.dec i j]
    refine (Matrix.mul_apply ..).trans (Finset.sum_congr rfl fun k _ => ?_)
    show L.s.B i k * L.s.D k * (L.s.B j k * L.s.D k) = L.s.B i k * L.s.D k ^ 2 * L.s.B j k
    ring
  · rcases hst with hst | hst
    · rw [e0]; exact hst
    · exact absurd hst h0
  · refine ⟨{ L.s with
              rng := (drawMat P.R.randn p n L.s.rng).2 }, ?_⟩
    show CMAES.sample P L.s = _
    unfold CMAES.sample
    dsimp only
    congr 2
    funext i j
    congr 2
    simp only [Matrix.mulVec, dotProduct]
    refine Finset.sum_congr rfl fun k _ => ?_
    ring

/-! ## A run over the reals -/

/-- A generator. -/
noncomputable def realGen : Rng Nat ℝ where
  seed s := s.toNat
  rand g := (((g * 7 + 3) % 10 : Nat) / 10, g + 1)
  randn g := (((g * 3 + 1) % 5 : Nat) - 2, g + 1)
  randint n g := (g % n, g + 1)
  perm _ g := (Equiv.refl _, g + 1)

noncomputable def realArgs : Args ℝ :=
  { bounds := { shape := [2, 2], get := fun l => if l.getD 1 0 = 0 then -1 else 1 }, fn := some fun x => .fin (∑ j, x j ^ 2), x0 := none,
    maxiter := 7, popsize := 10, seed := some 1, xtol := 1 / 100, ftol := .fin (1 / 100), workers := 1, backend := none,
    returnAll := true, verbosity := 1, callback := some true, sigma := 1 / 10, muperc := 1 / 2, constraints := some "Penalize" }

/-- With a decomposition as promised by `np.linalg.eigh` (one exists), this call returns, whatever the memory contains. -/
theorem real_run (junk : Vec ℝ 2) : ∃ (eigh : CMAES.Eigh ℝ), IsEigh eigh ∧
    ∃ o, CMAES.minimize Concrete.env realGen stableArgsort eigh 7 realArgs junk 0 = .ok o := by
  obtain ⟨eigh, he⟩ := exists_isEigh
  refine ⟨eigh, he, (C66_cmaes env_ok isArgsort_stable he (by norm_num) (le_refl _) ⟨?_, ?_, ?_, ?_⟩ ?_ ?_).2 ?_⟩
  · show 0 < 2; norm_num
  · show (0 : Int) < 10; norm_num
  · show (1 : ℝ) ≤ 1 / 2 * ((10 : Int) : ℝ); norm_num
  · intro h; exact absurd rfl h
  · show (1 / 2 : ℝ) * ((10 : Int) : ℝ) < (((2 : Nat) : ℝ) + 13 / 10) ^ 2; norm_num
  · intro _ fn hfn x
    cases hfn
    exact ⟨_, rfl⟩
  · refine ⟨rfl, rfl, nofun, ?_, ?_, nofun, ?_, ?_, fun _ => Or.inl (le_refl _), nofun⟩
    · show (0 : ℝ) < 1 / 10; norm_num
    · show (0 : ℝ) < 1 / 2 ∧ (1 / 2 : ℝ) ≤ 1; norm_num
    · show some "Penalize" ∈ _; simp
    · show (1 : Int) ≤ 7; norm_num

end

end Stochopy.Props
