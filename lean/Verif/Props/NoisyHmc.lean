import Verif.Lemmas.NoisyHmc
import Verif.Props.Endings

/-!
# C108: the moves of 'hmc' with a noisy objective

With finite answers (`φ k x` is the answer to request number `k`): which requests the finite differences of the integrator and the test
use, and what is recorded.
-/

set_option linter.unusedSectionVars false

namespace Stochopy
open Spec Sampling Concrete

variable {K σ : Type} [Field K] [LinearOrder K] [IsStrictOrderedRing K] [NumFns K] [LawfulNumFns K]
variable {R : Rng σ K} {g : σ}

/-- The loop of a completed call keeps the invariant on finite numbers. -/
theorem HMC.sampleAns_fin {a : HMC.Args K} {ans : Nat → Vec (Val K) a.ndim → Val K} {φ : Nat → Vec K a.ndim → K}
    (hφ : ∀ k x, ans k (point x) = .fin (φ k x)) (hh : a.fdStep ≠ 0) (hj : a.jac = none) {o : Sampling.Output σ K a.ndim}
    (h : (HMC.sampleAns R a ans g).1 = .ok o) :
    ∃ st s x g', a.stepsize.scale a.lower a.upper = .ok st ∧ 0 < a.maxiter ∧
      a.first R (a.seeded R g) = .ok (x, g') ∧
      HMC.IMF ans φ a.fdStep (HMC.par R a (ans 0) st) (x, ans 0 x) g' (a.maxiter.toNat - 1) s ∧
      HMC.finish a.maxiter a.returnAll s = .ok o := by
  unfold HMC.sampleAns at h
  cases hfn : a.fn with
  | none => rw [hfn] at h; cases h
  | some fn =>
    cases hch : a.checkStart with
    | error e => rw [hfn, hch] at h; cases h
    | ok u =>
      by_cases hnl : a.nleap < 1
      · rw [hfn, hch, decide_eq_true hnl] at h; cases h
      · cases hsc : a.stepsize.scale a.lower a.upper with
        | error e => rw [hfn, hch, hsc, decide_eq_false hnl] at h; cases h
        | ok st =>
          rw [hfn, hch, hsc, decide_eq_false hnl] at h
          dsimp only at h
          unfold HMC.restAns at h
          cases hbj : HMC.badJac a.jac with
          | true => rw [hbj] at h; cases h
          | false =>
            rw [hbj, if_neg (by simp)] at h
            cases hbc : a.badCallback with
            | true => rw [hbc] at h; cases h
            | false =>
              rw [hbc, if_neg (by simp)] at h
              obtain ⟨s0, h0, h⟩ := bind_ok_iff.1 h
              obtain ⟨s1, h1, h⟩ := bind_ok_iff.1 h
              obtain ⟨hm, x, g', hx, hg0, hev, hxc, hI⟩ := startA_inv h0
              refine ⟨st, s1, x, g', rfl, hm, hx, ?_, h⟩
              have h1' : HMC.loopAns ans (HMC.gradOfAns ans a.jac a.fdStep a.extraArgs) (HMC.par R a (ans 0) st) (a.maxiter.toNat - 1) s0 =
                .ok s1 := h1
              rw [HMC.loopAns_eq _ 0, hj] at h1'
              obtain ⟨q, hq⟩ := first_finite hx
              have hlast : (s0.xcur, s0.fcur) = (x, ans 0 x) := Option.some_injective _ (hI.last.symm.trans hI.first)
              have hrow : ∃ q v, (s0.xcur, s0.fcur) = (point q, .fin v) := by
                refine ⟨q, φ 0 q, ?_⟩
                rw [hlast, hq]
                exact Prod.ext rfl (hφ 0 q)
              have := steps_inv (I := HMC.IMF ans φ a.fdStep (HMC.par R a (ans 0) st) (x, ans 0 x) g')
                (fun i s s' => HMC.IMF_step hφ (HMC.gradOfAns_fin hφ hh a.extraArgs) (P := HMC.par R a (ans 0) st))
                (a.maxiter.toNat - 1) 0 (s := s0)
                ⟨hg0, by rw [hev]; simp [HMC.reqs], hrow, [], hI, fun k m hk => by simp at hk⟩ h1'
              rwa [Nat.zero_add] at this

/-- The number in a value without infinities and NaN. -/
def unfin (v : Val K) : K :=
  match v with
  | .fin k => k
  | _ => 0

/-- A pair of finite numbers. -/
def unrow {n : Nat} (r : Vec (Val K) n × Val K) : Vec K n × K := (HMC.unpoint r.1, unfin r.2)

/-- The moves of 'hmc' for an objective with noise or state whose answers are finite. -/
theorem C108_hmc_moves (hR : R.Ok) {a : HMC.Args K} {ans : Nat → Vec (Val K) a.ndim → Val K} {φ : Nat → Vec K a.ndim → K}
    (hφ : ∀ k x, ans k (point x) = .fin (φ k x)) (hh : a.fdStep ≠ 0) (hj : a.jac = none) {o : Sampling.Output σ K a.ndim}
    (h : (HMC.sampleAns R a ans g).1 = .ok o) :
    ∃ rows ms, NoisyHmcRun R a g φ rows ms ∧
      (a.returnAll = true → o.xall = some (rows.map fun r => point r.1) ∧ o.funall = some (rows.map fun r => .fin r.2)) ∧
      o.acceptRatio = (accepted ms : K) / (a.maxiter : K) ∧ o.nfev = some (requestsBefore a (a.maxiter.toNat - 1)) := by
  obtain ⟨st, s, x, g', h3, h4, h7, ⟨hg, hev, -, ms, hI, hm⟩, hfin⟩ := HMC.sampleAns_fin hφ hh hj h
  obtain ⟨hfs, rfl⟩ := first_spec h7
  obtain ⟨q1, hq1⟩ := first_finite h7
  have hst := (scale_ok h3).2
  subst hst
  unfold HMC.finish at hfin
  obtain ⟨idx, -, hfin⟩ := bind_ok_iff.1 hfin
  cases hfin
  have hreq : ∀ k, HMC.reqs (HMC.par R a (ans 0) (scaleOf a.toArgs)) k = requestsBefore a k := fun k => rfl
  have hrows : ∀ (k : Nat) r, (s.xs.zip s.fs)[k]? = some r → ∃ q v, r = (point q, .fin v) := by
    intro k r hr
    cases k with
    | zero =>
      rw [hI.first] at hr
      cases hr
      exact ⟨q1, φ 0 q1, by rw [hq1]; exact Prod.ext rfl (hφ 0 q1)⟩
    | succ k =>
      have hk : k < ms.length := by
        have h1 := (List.getElem?_eq_some_iff.1 hr).1
        have h2 := hI.links.1
        omega
      have hmk : ms[k]? = some ms[k] := List.getElem?_eq_getElem hk
      obtain ⟨-, h2⟩ := hI.links.2 k _ hmk
      rw [hr] at h2
      cases h2
      obtain ⟨q, v, hold, hp1, hp2, hacc⟩ := hm k _ hmk
      unfold Move.next
      split_ifs with hb
      · have hrej : (HMC.par R a (ans 0) (scaleOf a.toArgs)).constraints ≠ some "Reject" := by
          intro hc
          rw [hacc, hc] at hb
          simp at hb
        exact ⟨_, _, Prod.ext hp1 (hp2 hrej)⟩
      · exact ⟨q, v, hold⟩
  have hz1 : (s.xs.zip s.fs).map Prod.fst = s.xs := List.map_fst_zip (by rw [hI.rows])
  have hz2 : (s.xs.zip s.fs).map Prod.snd = s.fs := List.map_snd_zip (by rw [hI.rows])
  have hback : ∀ r ∈ s.xs.zip s.fs, point (unrow r).1 = r.1 ∧ Val.fin (unrow r).2 = r.2 := by
    intro r hr
    obtain ⟨k, hk⟩ := List.getElem?_of_mem hr
    obtain ⟨q, v, rfl⟩ := hrows k r hk
    exact ⟨rfl, rfl⟩
  refine ⟨(s.xs.zip s.fs).map unrow, ms.map fun m => { old := unrow m.old, prop := unrow m.prop, accepted := m.accepted },
    ⟨⟨?_, ?_⟩, ?_, ?_, ?_⟩, ?_, ?_, ?_⟩
  · rw [List.length_map, List.length_map]; exact hI.links.1
  · intro k m' hk
    rw [List.getElem?_map] at hk
    obtain ⟨m, hmk, rfl⟩ := Option.map_eq_some_iff.1 hk
    obtain ⟨h1, h2⟩ := hI.links.2 k m hmk
    rw [List.getElem?_map, List.getElem?_map, h1, h2]
    refine ⟨rfl, ?_⟩
    unfold Move.next
    dsimp only
    cases m.accepted <;> rfl
  · rw [List.length_map, hI.zlen]; omega
  · intro r hr
    rw [List.getElem?_map, hI.first] at hr
    cases hr
    rw [hq1] at hfs ⊢
    refine ⟨hfs, ?_⟩
    show unfin (ans 0 (point q1)) = _
    rw [hφ]
    rfl
  · intro k m' hk
    rw [List.getElem?_map] at hk
    obtain ⟨m, hmk, rfl⟩ := Option.map_eq_some_iff.1 hk
    obtain ⟨q, v, hold, hp1, hp2, hacc⟩ := hm k m hmk
    dsimp only at hp1 hp2 hacc ⊢
    rw [hold]
    refine ⟨?_, fun hc => ?_, ?_⟩
    · show HMC.unpoint m.prop.1 = _
      rw [hp1]
      rfl
    · show unfin m.prop.2 = _
      rw [hp2 hc]
      rfl
    · rw [hacc, Bool.and_eq_true]
      refine and_congr (by
        show (!decide (a.constraints = some "Reject")) = true ↔ _
        rw [Bool.not_eq_true', decide_eq_false_iff_not]) ?_
      rw [metropolis_iff (by exact hR.rand_nonneg _) (by exact hR.rand_lt_one _)]
      rfl
  · intro hr
    have e1 : ((s.xs.zip s.fs).map unrow).map (fun r => point r.1) = s.xs := by
      rw [List.map_map]
      refine Eq.trans (List.map_congr_left fun r hr => (hback r hr).1) hz1
    have e2 : ((s.xs.zip s.fs).map unrow).map (fun r => Val.fin r.2) = s.fs := by
      rw [List.map_map]
      refine Eq.trans (List.map_congr_left fun r hr => (hback r hr).2) hz2
    rw [e1, e2]
    show Sampling.attach a.returnAll _ = _ ∧ Sampling.attach a.returnAll _ = _
    rw [hr]; exact ⟨rfl, rfl⟩
  · show (s.nacc : K) / _ = _
    rw [hI.nacc]
    unfold accepted
    rw [List.filter_map, List.length_map]
    rfl
  · show some s.evals.length = _
    rw [hev]
    rfl

/-- The objective that counts its calls, in a run in which some but not all proposals are accepted. -/
example : ∃ (o : Sampling.Output Nat ℚ 2) (rows : List (Vec ℚ 2 × ℚ)) (ms : List (Move (Vec ℚ 2 × ℚ))),
    (HMC.sampleAns rng hmcArgs (wobble (1 / 1000)) 0).1 = .ok o ∧ noisyValues o = true ∧
    NoisyHmcRun rng hmcArgs 0 (fun k x => bowlK x + (k + 1 : Nat) * (1 / 1000)) rows ms ∧
    o.nfev = some (requestsBefore hmcArgs (hmcArgs.maxiter.toNat - 1)) := by
  obtain ⟨o, h1, h2⟩ : ∃ o, (HMC.sampleAns rng hmcArgs (wobble (1 / 1000)) 0).1 = .ok o ∧ noisyValues o = true :=
    returns_iff (by decide +kernel)
  obtain ⟨rows, ms, h3, -, -, h4⟩ := C108_hmc_moves (a := hmcArgs) (ans := wobble (1 / 1000))
    (φ := fun k x => bowlK x + (k + 1 : Nat) * (1 / 1000)) rng_ok (fun k x => rfl) (by decide +kernel) rfl h1
  exact ⟨o, rows, ms, h1, h2, h3, h4⟩

end Stochopy
