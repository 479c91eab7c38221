import Verif.Lemmas.NoiseSampler
import Verif.Props.Chains

/-!
# C108: the samplers with noise or state in the objective

`sampleAns … ans` is `sample` for an objective whose answer to the `k`-th request is `ans k x` (`Model/NoiseSampler.lean`).
-/

set_option linter.unusedSectionVars false

namespace Stochopy
open Spec Sampling Concrete

section Any
variable {K σ : Type} [AddZeroClass K] [One K] [Sub K] [Mul K] [Div K] [Neg K] [NatCast K] [IntCast K] [Pow K ℕ] [ArrayOps K] [LinearOrder K] [NumFns K]
variable {R : Rng σ K} {fuel : Nat} {g : σ}

/-! ## An objective that is a function: nothing changes -/

theorem C108_same_mcmc [IntParts K] {a : MCMC.Args K} {fn : Vec (Val K) a.ndim → Val K} (hfn : a.fn = some fn) :
    MCMC.sampleAns R fuel a (fun _ => fn) g = MCMC.sample R fuel a g := by
  unfold MCMC.sampleAns MCMC.sample
  rw [hfn]
  have h : ∀ st, MCMC.restAns R fuel a (fun _ => fn) st g = MCMC.rest R fuel a fn st g := by
    intro st
    unfold MCMC.restAns MCMC.rest
    have := fun s => MCMC.loopAns_const (P := MCMC.par R a fn st) fn fuel s
    simp only [MCMC.par] at this
    simp only [this]
  cases a.checkStart with
  | error e => rfl
  | ok u =>
    cases a.stepsize.scale a.lower a.upper with
    | error e => rfl
    | ok st => simp only [h]

theorem C108_same_hmc {a : HMC.Args K} {fn : Vec (Val K) a.ndim → Val K} (hfn : a.fn = some fn) :
    HMC.sampleAns R a (fun _ => fn) g = HMC.sample R a g := by
  unfold HMC.sampleAns HMC.sample
  rw [hfn]
  have h : ∀ st, HMC.restAns R a (fun _ => fn) st g = HMC.rest R a fn st g := by
    intro st
    unfold HMC.restAns HMC.rest
    have hl := fun k s => HMC.loopAns_const (P := HMC.par R a fn st) fn (HMC.gradOf fn a.jac a.fdStep a.extraArgs) rfl rfl k s
    simp only [HMC.par] at hl
    have hG : HMC.gradOfAns (fun _ => fn) a.jac a.fdStep a.extraArgs = fun _ => HMC.gradOf fn a.jac a.fdStep a.extraArgs := rfl
    simp only [hG, hl]
  cases a.checkStart with
  | error e => rfl
  | ok u =>
    cases decide (a.nleap < 1) with
    | true => rfl
    | false =>
      cases a.stepsize.scale a.lower a.upper with
      | error e => rfl
      | ok st => simp only [h]

theorem InvA.reports {a : Sampling.Args K} {ans : Nat → Vec (Val K) a.ndim → Val K} {r1 : Vec (Val K) a.ndim × Val K}
    {s : State σ K a.ndim} {ms : List (Move (Vec (Val K) a.ndim × Val K))} (hm : 0 < a.maxiter)
    (h : InvA ans r1 (a.maxiter.toNat - 1) s ms) {o : Sampling.Output σ K a.ndim} (h1 : o.nit = a.maxiter)
    (h2 : o.xall = Sampling.attach a.returnAll s.xs) (h3 : o.funall = Sampling.attach a.returnAll s.fs) (h4 : o.cbs = s.cbs) (h5 : o.evals = s.evals) :
    RowsReported ans s.xs s.fs o := by
  refine ⟨h.rows, by rw [h.len, h1]; omega, by rw [h5]; exact h.replied, by rw [h4]; exact h.cb, ?_, ?_⟩
  · intro ys hy
    rw [h2] at hy
    unfold Sampling.attach at hy
    split_ifs at hy
    cases hy; rfl
  · intro ys hy
    rw [h3] at hy
    unfold Sampling.attach at hy
    split_ifs at hy
    cases hy; rfl

/-! ## hmc -/

/-- Every recorded value is the answer given when its sample was asked for; the result is the best recorded pair. -/
theorem C108_hmc {a : HMC.Args K} {ans : Nat → Vec (Val K) a.ndim → Val K} {o : Sampling.Output σ K a.ndim}
    (h : (HMC.sampleAns R a ans g).1 = .ok o) :
    ∃ xs fs, RowsReported ans xs fs o ∧ (a.returnAll = true → o.xall = some xs ∧ o.funall = some fs) ∧ Recorded xs fs o.x o.fval ∧
      (∀ v ∈ fs, ¬ v < o.fval) ∧ o.nfev = some o.evals.length ∧ ∃ x, xs[0]? = some x ∧ fs[0]? = some (ans 0 x) ∧ o.evals[0]? = some x := by
  obtain ⟨st, s, x, g', h1, h2, h3, h4, ⟨hg, hev, ms, hI⟩, h6⟩ := HMC.sampleAns_ok h
  unfold HMC.finish at h6
  obtain ⟨idx, hidx, h6⟩ := bind_ok_iff.1 h6
  cases h6
  have hidx' : idx.val < s.xs.length := by rw [hI.rows]; exact idx.isLt
  refine ⟨s.xs, s.fs, hI.reports h3 rfl rfl rfl rfl rfl, fun hr => ?_, ⟨idx, ?_, ?_⟩, ?_, rfl, x, ?_, ?_, ?_⟩
  · show Sampling.attach a.returnAll _ = _ ∧ Sampling.attach a.returnAll _ = _
    rw [hr]; exact ⟨rfl, rfl⟩
  · show s.xs[idx.val]? = some (s.xs.getD idx s.xcur)
    rw [List.getD_eq_getElem?_getD, List.getElem?_eq_getElem hidx']; rfl
  · show s.fs[idx.val]? = some (s.fs.get idx)
    rw [List.getElem?_eq_getElem idx.isLt]; rfl
  · intro v hv
    obtain ⟨k, hk, rfl⟩ := List.getElem_of_mem hv
    exact argmin_not_lt hidx ⟨k, hk⟩
  · exact (getElem?_zip_some.1 hI.first).1
  · exact (getElem?_zip_some.1 hI.first).2
  · exact hev

end Any

/-! ## mcmc -/

variable {K σ : Type} [Field K] [LinearOrder K] [IsStrictOrderedRing K] [FloorRing K] [NumFns K] [LawfulNumFns K]
variable {R : Rng σ K} {fuel : Nat} {g : σ}

/-- The chain of pairs of a sample and the answer for it. -/
theorem C108_mcmc (hR : R.Ok) {a : MCMC.Args K} {ans : Nat → Vec (Val K) a.ndim → Val K} {o : Sampling.Output σ K a.ndim}
    (h : (MCMC.sampleAns R fuel a ans g).1 = .ok o) :
    ∃ rows ms, NoisyMcmcRun R a g ans o.evals rows ms ∧ RowsReported ans (rows.map Prod.fst) (rows.map Prod.snd) o ∧
      (a.returnAll = true → o.xall = some (rows.map Prod.fst) ∧ o.funall = some (rows.map Prod.snd)) ∧
      o.acceptRatio = (accepted ms : K) / (a.maxiter : K) ∧ (o.fval = .pinf ∨ (o.x, o.fval) ∈ rows) ∧
      ∀ m ∈ ms, m.accepted = true → ¬ m.prop.2 < o.fval := by
  obtain ⟨st, s, x, g', h2, h3, h4, h5, h6, h7, ⟨hg, ms, hI, hm, hev⟩, h9, rfl⟩ := MCMC.sampleAns_ok h
  obtain ⟨hfs, rfl⟩ := first_spec h7
  have hper : MCMC.perIter a.perc a.ndim = blockSize a.perc a.ndim := MCMC.perIter_eq h4.1 _
  have hst := (scale_ok h3).2
  subst hst
  have hgen : ∀ k, MCMC.gen (MCMC.par R a (ans 0) (scaleOf a.toArgs)) (genStart R a.toArgs g) k =
      genAt R (blockSize a.perc a.ndim) (!decide (a.constraints = some "Reject")) (genStart R a.toArgs g) k := by
    intro k
    show genAt R (MCMC.perIter a.perc a.ndim) _ _ _ = _
    rw [hper]
    rfl
  have hz1 : (s.xs.zip s.fs).map Prod.fst = s.xs := List.map_fst_zip (by rw [hI.rows])
  have hz2 : (s.xs.zip s.fs).map Prod.snd = s.fs := List.map_snd_zip (by rw [hI.rows])
  refine ⟨s.xs.zip s.fs, ms, ⟨hI.links, ?_, ?_, ?_, ?_, ?_⟩, ?_, ?_, ?_, ?_, ?_⟩
  · rw [hI.zlen]; omega
  · intro r hr
    rw [hI.first] at hr
    cases hr
    refine ⟨hfs, ?_, rfl⟩
    show s.evals[0]? = _
    rw [hev]; rfl
  · intro k m hk
    obtain ⟨_, q2, _⟩ := hm k m hk
    rw [hgen] at q2
    intro c
    rw [q2, ← hper]
    rfl
  · intro hc
    have hc' : (MCMC.par R a (ans 0) (scaleOf a.toArgs)).constraints ≠ some "Reject" := hc
    rw [if_neg hc'] at hev
    refine ⟨?_, fun k m hk => ⟨?_, (hm k m hk).2.2.1 hc⟩⟩
    · show s.evals.length = _
      rw [hev, List.length_cons, List.length_map, hI.links.1]
    · show s.evals[k + 1]? = _
      rw [hev, List.getElem?_cons_succ, List.getElem?_map, hk]
      rfl
  · intro k m hk
    obtain ⟨_, _, _, q3⟩ := hm k m hk
    rw [hgen, truthy_inSearchSpace] at q3
    rw [q3, Bool.and_eq_true]
    refine and_congr (by
      show (!decide (a.constraints = some "Reject")) = true ↔ _
      rw [Bool.not_eq_true', decide_eq_false_iff_not]) ?_
    rw [metropolis_iff (by exact hR.rand_nonneg _) (by exact hR.rand_lt_one _), ← hper]
    rfl
  · rw [hz1, hz2]
    exact hI.reports h6 rfl rfl rfl rfl rfl
  · intro hr
    rw [hz1, hz2]
    show Sampling.attach a.returnAll _ = _ ∧ Sampling.attach a.returnAll _ = _
    rw [hr]; exact ⟨rfl, rfl⟩
  · show (s.nacc : K) / _ = _
    rw [hI.nacc]
  · rcases hI.imin with ⟨q, -⟩ | ⟨-, q⟩
    · right
      have hlt : s.imin < s.xs.length := by rw [hI.rows]; exact (List.getElem?_eq_some_iff.1 q).1
      refine List.mem_of_getElem? (i := s.imin) (getElem?_zip_some.2 ⟨?_, q⟩)
      show _ = some (s.xs.getD s.imin s.xcur)
      rw [List.getD_eq_getElem?_getD, List.getElem?_eq_getElem hlt]; rfl
    · exact Or.inl q
  · exact hI.best

/-! ## hmc compares with another answer than the recorded one

An objective that answers `-100` to the first request and `0` to all others: the landscape seen by the integrator is flat, the first
proposal is accepted although its recorded value is larger by 100 than the recorded value of the current sample and the test between
the two recorded values fails ('hmc' asks again for the current sample, line 159). -/

namespace Concrete

/-- A first answer out of line. -/
def outlier (k : Nat) (_ : Vec (Val ℚ) 2) : Val ℚ := if k = 0 then .fin (-100) else .fin 0

def hmcTwo : HMC.Args ℚ := { hmcArgs with maxiter := 2 }

/-- The values recorded by a chain. -/
def values {n : Nat} (o : Sampling.Output Nat ℚ n) : Bool :=
  decide (o.funall = some [.fin (-100), .fin 0]) && decide (o.acceptRatio = 1 / 2)

/-- An objective that counts its calls. -/
def wobble (ε : ℚ) (k : Nat) (x : Vec (Val ℚ) 2) : Val ℚ := bowl x + .fin ((k + 1 : Nat) * ε)

/-- The recorded values are not all the same function of the recorded samples. -/
def noisyValues (o : Sampling.Output Nat ℚ 2) : Bool := mixed o && decide (o.funall ≠ o.xall.map (·.map bowl))

end Concrete

theorem C108_hmc_test_violated : ∃ (o : Sampling.Output Nat ℚ 2), (HMC.sampleAns rng hmcTwo outlier 0).1 = .ok o ∧
    hmcTwo.jac = none ∧ hmcTwo.constraints = none ∧ o.funall = some [.fin (-100), .fin 0] ∧ o.acceptRatio = 1 / 2 ∧
    (∀ k x, 0 < k → outlier k x = .fin 0) ∧
    ¬ Accepts ((.fin (-100) : Val ℚ) - .fin 0) (uniform rng (genStart rng hmcTwo.toArgs 0) hmcTwo.ndim) := by
  obtain ⟨o, h1, h2⟩ : ∃ o, (HMC.sampleAns rng hmcTwo outlier 0).1 = .ok o ∧ values o = true := returns_iff (by decide +kernel)
  simp only [values, Bool.and_eq_true, decide_eq_true_eq] at h2
  refine ⟨o, h1, rfl, rfl, h2.1, h2.2, ?_, ?_⟩
  · intro k x hk
    unfold outlier
    rw [if_neg (by omega)]
  · show ¬ ((0 : ℚ) ≤ _ ∨ _ ∨ _)
    decide +kernel

/-- Runs in which some but not all proposals are accepted, with another answer at every request. -/
example : ∃ o, (MCMC.sampleAns rng 10 mcmcArgs (wobble (1 / 100)) 0).1 = .ok o ∧ noisyValues o = true := returns_iff (by decide +kernel)

example : ∃ o, (HMC.sampleAns rng hmcArgs (wobble (1 / 1000)) 0).1 = .ok o ∧ noisyValues o = true := returns_iff (by decide +kernel)

end Stochopy
