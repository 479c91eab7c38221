import Verif.Lemmas.MCMC
import Verif.Lemmas.Total
import Verif.Lemmas.HMC
import Verif.Spec.Sampler
import Verif.Base.Lawful
import Mathlib.Algebra.Order.Floor.Semiring
import Mathlib.Algebra.Order.Field.Basic
import Mathlib.Tactic.Linarith

/-! # Valid calls of the samplers -/

set_option linter.unusedSectionVars false

namespace Stochopy.Sampling
open Spec

section Any
variable {K σ : Type} [Zero K] [One K] [Add K] [Sub K] [Mul K] [Div K] [Neg K] [NatCast K] [IntCast K] [Pow K ℕ] [ArrayOps K] [LinearOrder K] [NumFns K]

/-- The scaled step sizes in any arithmetic. -/
theorem scale_any {a : Args K} {st : Vec K a.ndim} (h : a.stepsize.scale a.lower a.upper = .ok st) :
    ValidStep a.bounds.len a.stepsize ∧ st = fun j : Fin a.ndim => stepEntry a.stepsize j * (1 / 2 * (a.upper j - a.lower j)) := by
  unfold StepArg.scale at h
  cases hs : a.stepsize with
  | scalar isInt k =>
    rw [hs] at h
    dsimp only at h
    cases isInt with
    | true => cases h
    | false =>
      cases h
      exact ⟨rfl, rfl⟩
  | seq kind v =>
    rw [hs] at h
    dsimp only at h
    by_cases h1 : v.length ≠ a.ndim
    · rw [if_pos h1] at h; cases h
    rw [if_neg h1] at h
    by_cases h2 : kind = .intArray
    · rw [if_pos h2] at h; cases h
    rw [if_neg h2] at h
    cases h
    exact ⟨⟨by simpa using h1, h2⟩, rfl⟩

theorem metropolis_iff [NegativeLog K] {d : Val K} {u : K} (h0 : 0 ≤ u) (h1 : u < 1) :
    metropolis d u = true ↔ Accepts d u := by
  have hlog : npLog u < (.fin 0 : Val K) := by
    unfold npLog
    by_cases hu : u = 0
    · rw [if_pos hu]; trivial
    · rw [if_neg hu]; exact NegativeLog.log_neg u (lt_of_le_of_ne h0 (Ne.symm hu)) h1
  unfold metropolis
  rw [decide_eq_true_eq]
  unfold Val.pyMin Accepts
  cases d with
  | nan => rw [if_neg (by intro h; exact h)]; simp [hlog]
  | pinf => rw [if_neg (by intro h; exact h)]; simp [hlog]
  | ninf =>
    rw [if_pos (show (Val.ninf : Val K) < .fin 0 from trivial)]
    simp only [iff_false]
    unfold npLog
    by_cases hu : u = 0
    · rw [if_pos hu]; intro h; exact h
    · rw [if_neg hu]; intro h; exact h
  | fin d =>
    by_cases hd : d < 0
    · rw [if_pos (show (Val.fin d : Val K) < .fin 0 from hd)]
      unfold npLog
      by_cases hu : u = 0
      · rw [if_pos hu]
        simp only [hu, true_or, or_true, iff_true]
        trivial
      · rw [if_neg hu]
        constructor
        · intro h; exact Or.inr (Or.inr h)
        · rintro (h | h | h)
          · exact absurd h (not_le.2 hd)
          · exact absurd h hu
          · exact h
    · rw [if_neg (show ¬ (Val.fin d : Val K) < .fin 0 from hd)]
      exact ⟨fun _ => Or.inl (not_lt.1 hd), fun _ => hlog⟩

end Any

variable {K σ : Type} [Field K] [LinearOrder K] [NumFns K]

theorem shape_iff (x : NdArr K) : (x.ndim = 2 ∧ x.dim1 = 2) ↔ x.shape = [x.len, 2] := by
  unfold NdArr.ndim NdArr.dim1 NdArr.len
  match x.shape with
  | [] => simp
  | [a] => simp
  | [a, b] => simp
  | a :: b :: c :: l => simp

theorem checkStart_ok {a : Args K} (h : a.checkStart = .ok ()) :
    a.fn.isSome ∧ a.bounds.shape = [a.bounds.len, 2] ∧ a.scalarX0 = false ∧ a.badX0Len = false := by
  unfold Args.checkStart at h
  by_cases h1 : a.fn.isNone = true
  · rw [if_pos h1] at h; cases h
  rw [if_neg h1] at h
  by_cases h2 : a.bounds.ndim ≠ 2
  · rw [if_pos h2] at h; cases h
  rw [if_neg h2] at h
  by_cases h3 : a.bounds.dim1 ≠ 2
  · rw [if_pos h3] at h; cases h
  rw [if_neg h3] at h
  by_cases h4 : a.scalarX0 = true
  · rw [if_pos h4] at h; cases h
  rw [if_neg h4] at h
  by_cases h5 : a.badX0Len = true
  · rw [if_pos h5] at h; cases h
  refine ⟨?_, (shape_iff _).1 ⟨by omega, by omega⟩, by simpa using h4, by simpa using h5⟩
  cases hf : a.fn with
  | none => rw [hf] at h1; simp at h1
  | some f => rfl

theorem checkStart_of {a : Args K} (h1 : a.fn.isSome) (h2 : a.bounds.shape = [a.bounds.len, 2])
    (h3 : a.scalarX0 = false) (h4 : a.badX0Len = false) : a.checkStart = .ok () := by
  obtain ⟨q1, q2⟩ := (shape_iff a.bounds).2 h2
  unfold Args.checkStart
  have : a.fn.isNone = false := by cases hf : a.fn with
    | none => rw [hf] at h1; simp at h1
    | some f => rfl
  rw [this, h3, h4]
  simp [q1, q2]

/-- The scaled step sizes. -/
theorem scale_ok {a : Args K} {st : Vec K a.ndim} (h : a.stepsize.scale a.lower a.upper = .ok st) :
    ValidStep a.bounds.len a.stepsize ∧ st = scaleOf a := by
  refine ⟨(scale_any h).1, (scale_any h).2.trans ?_⟩
  funext j
  show stepEntry a.stepsize j * (1 / 2 * (a.upper j - a.lower j)) = stepEntry a.stepsize j * ((a.upper j - a.lower j) / 2)
  ring

theorem scale_of_valid {a : Args K} (h : ValidStep a.bounds.len a.stepsize) :
    a.stepsize.scale a.lower a.upper = .ok (scaleOf a) := by
  cases hsc : a.stepsize.scale a.lower a.upper with
  | ok st => rw [(scale_ok hsc).2]
  | error e =>
    exfalso
    unfold StepArg.scale at hsc
    cases hs : a.stepsize with
    | scalar isInt k =>
      rw [hs] at hsc h
      have : isInt = false := h
      subst this
      cases hsc
    | seq kind v =>
      rw [hs] at hsc h
      dsimp only at hsc
      rw [if_neg (by simpa using h.1), if_neg h.2] at hsc
      cases hsc

theorem first_ok {a : Args K} {R : Rng σ K} {g : σ} {q} (h : a.first R g = .ok q) :
    (∀ x, a.x0 = some x → ValidX0 a.bounds.len x ∨ a.scalarX0 = true) ∧
    (∀ x, a.x0 = some x → x.shape = [a.bounds.len] → q.1 = fun j => .fin (x.get [j])) ∧
    (a.x0 = none → q.1 = fun j => .fin (unif (a.lower j) (a.upper j) ((drawVec R.rand a.ndim g).1 j))) := by
  unfold Args.first at h
  cases hx : a.x0 with
  | none =>
    rw [hx] at h
    cases h
    exact ⟨fun x h => (nomatch h), fun x h => (nomatch h), fun _ => rfl⟩
  | some x =>
    rw [hx] at h
    dsimp only at h
    refine ⟨?_, ?_, by intro h; cases h⟩
    · intro x' hx'
      cases hx'
      by_cases h1 : x.shape = [a.ndim]
      · exact Or.inl (Or.inl h1)
      · rw [if_neg h1] at h
        by_cases h2 : a.ndim = 1 ∧ x.shape.all (· == 1) = true
        · by_cases h3 : x.shape = []
          · right; unfold Args.scalarX0; rw [hx]; simp [h3]
          · left; right
            refine ⟨h2.1, h3, ?_⟩
            have := h2.2
            rw [List.all_eq_true] at this
            intro d hd
            simpa using this d hd
        · rw [if_neg h2] at h; cases h
    · intro x' hx' hsh
      cases hx'
      rw [if_pos hsh] at h
      cases h
      rfl

theorem first_of_valid {a : Args K} (R : Rng σ K) (g : σ) (h : ∀ x, a.x0 = some x → ValidX0 a.bounds.len x) :
    ∃ q, a.first R g = .ok q := by
  unfold Args.first
  cases hx : a.x0 with
  | none => exact ⟨_, rfl⟩
  | some x =>
    dsimp only
    rcases h x hx with h1 | ⟨h1, h2, h3⟩
    · rw [if_pos h1]; exact ⟨_, rfl⟩
    · by_cases h4 : x.shape = [a.ndim]
      · rw [if_pos h4]; exact ⟨_, rfl⟩
      · rw [if_neg h4, if_pos]
        · exact ⟨_, rfl⟩
        · refine ⟨h1, ?_⟩
          rw [List.all_eq_true]
          intro d hd
          simpa using h3 d hd

theorem start_of_valid {a : Args K} (fn : Vec (Val K) a.ndim → Val K) (R : Rng σ K) (g : σ)
    (h : ∀ x, a.x0 = some x → ValidX0 a.bounds.len x) (hm : 1 ≤ a.maxiter) : ∃ s, start a fn R g = .ok s := by
  obtain ⟨q, hq⟩ := first_of_valid R g h
  unfold start
  rw [if_neg (by omega), if_neg (by omega), hq]
  exact ⟨_, rfl⟩

/-- A valid call passes the first checks. -/
theorem checkStart_of_valid {a : Args K} (h : ValidSampler a) : a.checkStart = .ok () := by
  refine checkStart_of h.objective h.bounds ?_ ?_
  · unfold Args.scalarX0
    cases hx : a.x0 with
    | none => rfl
    | some x =>
      dsimp only
      rcases h.x0 x hx with h1 | ⟨_, h2, _⟩
      · rw [h1]; rfl
      · simpa using h2
  · unfold Args.badX0Len
    cases hx : a.x0 with
    | none => rfl
    | some x =>
      dsimp only
      rcases h.x0 x hx with h1 | ⟨h1, h2, h3⟩
      · unfold NdArr.len; rw [h1]; simp [NdArr.len]
      · unfold NdArr.len
        cases hs : x.shape with
        | nil => exact absurd hs h2
        | cons d l =>
          have : d = 1 := h3 d (by rw [hs]; simp)
          have hl : a.bounds.len = 1 := h1
          show (d != a.bounds.len) = false
          rw [hl, this]
          rfl

/-- The common part of a completed call. -/
theorem valid_of_ok {a : Args K} {R : Rng σ K} {g : σ} {q} {st : Vec K a.ndim} (h1 : a.checkStart = .ok ())
    (h2 : a.stepsize.scale a.lower a.upper = .ok st) (h3 : a.badCallback = false) (h4 : 0 < a.maxiter)
    (h5 : a.first R g = .ok q) : ValidSampler a := by
  obtain ⟨q1, q2, q3, q4⟩ := checkStart_ok h1
  refine ⟨q1, q2, ?_, (scale_ok h2).1, ?_, by omega⟩
  · intro x hx
    rcases (first_ok h5).1 x hx with h | h
    · exact h
    · rw [q3] at h; cases h
  · intro hc
    unfold Args.badCallback at h3
    rw [hc] at h3
    simp at h3

theorem first_spec {a : Args K} {R : Rng σ K} {g : σ} {x g'} (h : a.first R (a.seeded R g) = .ok (x, g')) :
    FirstSample R a g x ∧ g' = genStart R a g := by
  unfold Args.first at h
  unfold FirstSample genStart
  cases hx : a.x0 with
  | none =>
    rw [hx] at h
    cases h
    exact ⟨rfl, rfl⟩
  | some x' =>
    rw [hx] at h
    dsimp only at h ⊢
    by_cases h1 : x'.shape = [a.ndim]
    · rw [if_pos h1] at h
      cases h
      exact ⟨fun _ => rfl, rfl⟩
    · rw [if_neg h1] at h
      by_cases h2 : a.ndim = 1 ∧ x'.shape.all (· == 1) = true
      · rw [if_pos h2] at h
        cases h
        exact ⟨fun h => absurd h h1, rfl⟩
      · rw [if_neg h2] at h; cases h

theorem first_finite {a : Args K} {R : Rng σ K} {g : σ} {x g'} (h : a.first R g = .ok (x, g')) : ∃ q, x = point q := by
  unfold Args.first at h
  cases hx : a.x0 with
  | none =>
    rw [hx] at h
    cases h
    exact ⟨_, rfl⟩
  | some x' =>
    rw [hx] at h
    dsimp only at h
    by_cases h1 : x'.shape = [a.ndim]
    · rw [if_pos h1] at h
      cases h
      exact ⟨_, rfl⟩
    · rw [if_neg h1] at h
      by_cases h2 : a.ndim = 1 ∧ x'.shape.all (· == 1) = true
      · rw [if_pos h2] at h
        cases h
        exact ⟨_, rfl⟩
      · rw [if_neg h2] at h; cases h

/-- A random start lies in the box. -/
theorem first_inside [IsStrictOrderedRing K] {a : Args K} {R : Rng σ K} (hR : R.Ok) {g : σ} {q}
    (h : a.first R g = .ok q) (hx : a.x0 = none) (hb : ∀ j, a.lower j ≤ a.upper j) : Inside a.lower a.upper q.1 := by
  rw [(first_ok h).2.2 hx]
  intro j
  have h0 := hR.rand_nonneg ((fun g => (R.rand g).2)^[j.val] g)
  have h1 := hR.rand_lt_one ((fun g => (R.rand g).2)^[j.val] g)
  have hj := hb j
  refine ⟨?_, ?_⟩
  · show a.lower j ≤ _
    unfold unif drawVec
    nlinarith
  · show _ ≤ a.upper j
    unfold unif drawVec
    nlinarith

end Stochopy.Sampling

namespace Stochopy.MCMC
open Sampling Spec
variable {K σ : Type} [Field K] [LinearOrder K] [NumFns K] [IsStrictOrderedRing K] [FloorRing K]

theorem perIter_eq {perc : K} (h : 0 ≤ perc) (n : Nat) : perIter perc n = blockSize perc n := by
  unfold perIter blockSize pyInt
  have h1 : 0 ≤ perc * (n : K) := mul_nonneg h (Nat.cast_nonneg n)
  rw [if_pos h1, IntParts.floor_eq]
  have h2 : (0 : Int) ≤ ⌊perc * (n : K)⌋ := Int.floor_nonneg.2 h1
  have h3 : (⌊perc * (n : K)⌋₊ : Int) = ⌊perc * (n : K)⌋ := Int.natCast_floor_eq_floor h1
  omega

theorem blockSize_le {perc : K} (h : perc ≤ 1) {n : Nat} (hn : 0 < n) : blockSize perc n ≤ n := by
  unfold blockSize
  have : ⌊perc * (n : K)⌋₊ ≤ n := by
    refine Nat.floor_le_of_le ?_
    have : (0 : K) ≤ n := Nat.cast_nonneg n
    nlinarith
  omega

/-- What a completed call did, in the vocabulary of the specification. -/
theorem run_of_ok_fin [LawfulNumFns K] {R : Rng σ K} (hR : R.Ok) {fuel : Nat} {a : Args K} {g : σ} {o : Sampling.Output σ K a.ndim}
    {fn : Vec (Val K) a.ndim → Val K} (hfn : a.fn = some fn) (h : (sample R fuel a g).1 = .ok o) :
    ∃ xs ms s x1, McmcRun R a g fn xs ms ∧ s.xs = xs ∧ o = finish a.maxiter a.returnAll s ∧
      Inv fn a.callback.isSome a.returnAll x1 (a.maxiter.toNat - 1) s ms ∧ FirstSample R a.toArgs g x1 ∧
      s.rng = genAt R (blockSize a.perc a.ndim) (!decide (a.constraints = some "Reject")) (genStart R a.toArgs g)
        (a.maxiter.toNat - 1) ∧
      s.evals = x1 :: (if a.constraints = some "Reject" then [] else ms.map Move.prop) ∧
      (∀ k m, ms[k]? = some m →
        k % blockCount a.ndim (blockSize a.perc a.ndim) * blockSize a.perc a.ndim + blockSize a.perc a.ndim ≤ a.ndim) ∧
      ∃ q, x1 = point q := by
  obtain ⟨fn', st, s, x, g', h1, h2, h3, h4, h5, h6, h7, ⟨hg, ms, hI, hm, hev⟩, h9, h10⟩ := sample_ok h
  rw [hfn] at h1
  cases h1
  obtain ⟨hfs, rfl⟩ := first_spec h7
  have hper : perIter a.perc a.ndim = blockSize a.perc a.ndim := perIter_eq h4.1 _
  have hst := (scale_ok h3).2
  subst hst
  have hgen : ∀ k, gen (par R a fn (scaleOf a.toArgs)) (genStart R a.toArgs g) k =
      genAt R (blockSize a.perc a.ndim) (!decide (a.constraints = some "Reject")) (genStart R a.toArgs g) k := by
    intro k
    show genAt R (perIter a.perc a.ndim) _ _ _ = _
    rw [hper]
    rfl
  refine ⟨s.xs, ms, s, x, ⟨hI.links, ?_, ?_, ?_, ?_⟩, rfl, h10, hI, hfs, by rw [hg, hgen], hev, ?_, first_finite h7⟩
  · rw [hI.len]; omega
  · intro y hy
    rw [hI.first] at hy
    cases hy
    exact hfs
  · intro k m hk
    obtain ⟨_, q2, _⟩ := hm k m hk
    rw [hgen] at q2
    intro c
    rw [q2, ← hper]
    rfl
  · intro k m hk
    obtain ⟨_, _, q3⟩ := hm k m hk
    rw [hgen, truthy_inSearchSpace] at q3
    rw [q3, Bool.and_eq_true]
    refine and_congr (by
      show (!decide (a.constraints = some "Reject")) = true ↔ _
      rw [Bool.not_eq_true', decide_eq_false_iff_not]) ?_
    rw [metropolis_iff (by exact hR.rand_nonneg _) (by exact hR.rand_lt_one _), ← hper]
    rfl
  · intro k m hk
    obtain ⟨q1, _, _⟩ := hm k m hk
    rw [← hper]
    exact q1

/-- What a completed call did, in the vocabulary of the specification. -/
theorem run_of_ok [LawfulNumFns K] {R : Rng σ K} (hR : R.Ok) {fuel : Nat} {a : Args K} {g : σ} {o : Sampling.Output σ K a.ndim}
    {fn : Vec (Val K) a.ndim → Val K} (hfn : a.fn = some fn) (h : (sample R fuel a g).1 = .ok o) :
    ∃ xs ms s x1, McmcRun R a g fn xs ms ∧ s.xs = xs ∧ o = finish a.maxiter a.returnAll s ∧
      Inv fn a.callback.isSome a.returnAll x1 (a.maxiter.toNat - 1) s ms ∧ FirstSample R a.toArgs g x1 ∧
      s.rng = genAt R (blockSize a.perc a.ndim) (!decide (a.constraints = some "Reject")) (genStart R a.toArgs g)
        (a.maxiter.toNat - 1) ∧
      s.evals = x1 :: (if a.constraints = some "Reject" then [] else ms.map Move.prop) ∧
      (∀ k m, ms[k]? = some m →
        k % blockCount a.ndim (blockSize a.perc a.ndim) * blockSize a.perc a.ndim + blockSize a.perc a.ndim ≤ a.ndim) := by
  obtain ⟨xs, ms, s, x1, r1, r2, r3, r4, r5, r6, r7, r8, _⟩ := run_of_ok_fin hR hfn h
  exact ⟨xs, ms, s, x1, r1, r2, r3, r4, r5, r6, r7, r8⟩

/-- Every iteration `< N` has a block that fits iff the block size divides the dimension or the first sweep is not
completed. -/
theorem fits_iff {n per N : Nat} (hp : 0 < per) (hn : 0 < n) (hle : per ≤ n) :
    (∀ i < N, i % nblocks n per * per + per ≤ n) ↔ (per ∣ n ∨ N ≤ n / per) := by
  have hnb : 0 < nblocks n per := Nat.div_pos (by omega) hp
  have hdm := Nat.div_add_mod n per
  constructor
  · intro h
    by_cases hd : per ∣ n
    · exact Or.inl hd
    · right
      by_contra hN
      have hmod : n % per ≠ 0 := fun h0 => hd (Nat.dvd_of_mod_eq_zero h0)
      have hlt := Nat.mod_lt n hp
      have hb : nblocks n per = n / per + 1 := by
        unfold nblocks
        rw [Nat.div_eq_iff hp]
        constructor
        · rw [Nat.add_mul, Nat.mul_comm (n / per)]; omega
        · rw [Nat.add_mul, Nat.mul_comm (n / per)]; omega
      have := h (n / per) (by omega)
      rw [hb, Nat.mod_eq_of_lt (by omega), Nat.mul_comm] at this
      omega
  · rintro (hd | hN) i hi
    · obtain ⟨q, rfl⟩ := hd
      have hb : nblocks (per * q) per = q := by
        unfold nblocks
        rw [show per * q + per - 1 = (per - 1) + per * q by omega, Nat.add_mul_div_left _ _ hp,
          Nat.div_eq_of_lt (by omega), zero_add]
      rw [hb] at hnb ⊢
      have h1 := Nat.mod_lt i hnb
      have h2 : (i % q + 1) * per ≤ q * per := Nat.mul_le_mul_right _ h1
      rw [Nat.add_mul] at h2
      rw [Nat.mul_comm per q]
      omega
    · have hge : n / per ≤ nblocks n per := by
        unfold nblocks
        exact Nat.div_le_div_right (by omega)
      rw [Nat.mod_eq_of_lt (by omega)]
      have h2 : (i + 1) * per ≤ n / per * per := Nat.mul_le_mul_right _ (by omega)
      have h3 := Nat.div_mul_le_self n per
      rw [Nat.add_mul] at h2
      omega

/-- With valid arguments the call is the sequence of its moves. -/
theorem sample_steps [LawfulNumFns K] {R : Rng σ K} {fuel : Nat} {a : Args K} {g : σ} (hv : ValidMCMC a)
    (hn : 0 < a.ndim) (hf : a.maxiter.toNat ≤ fuel) : ∃ fn s0, a.fn = some fn ∧ s0.xs.length = 1 ∧
    (sample R fuel a g).1 = (steps (step (par R a fn (scaleOf a.toArgs))) 0 (a.maxiter.toNat - 1) s0).bind
      fun s => .ok (finish a.maxiter a.returnAll s) := by
  obtain ⟨fn, hfn⟩ := Option.isSome_iff_exists.1 hv.objective
  obtain ⟨s0, hs0⟩ := start_of_valid fn R (a.seeded R g) hv.x0 hv.maxiter
  obtain ⟨_, x, g', _, _, _, _, hI⟩ := start_inv hs0
  refine ⟨fn, s0, hfn, by simpa using hI.len, ?_⟩
  unfold sample
  rw [hfn, checkStart_of_valid hv.toValidSampler, scale_of_valid hv.stepsize]
  dsimp only
  have hbc : a.badCallback = false := by
    unfold Args.badCallback
    have := hv.callback
    cases hc : a.callback with
    | none => rfl
    | some b => cases b with
      | true => rfl
      | false => exact absurd hc this
  unfold rest
  rw [if_neg (by simpa using hv.perc), hbc, if_neg (by simp), hs0, ok_bind']
  have hm := hv.maxiter
  have := loop_eq (P := par R a fn (scaleOf a.toArgs)) (perIter_pos a.perc a.ndim) hn fuel 0 s0
    (by simpa using hI.len) (Nat.zero_mod _) (by show 0 + 1 ≤ a.maxiter.toNat; omega)
    (by show a.maxiter.toNat ≤ 0 + 1 + fuel; omega)
  have hl : loop (par R a fn (scaleOf a.toArgs)) fuel s0 =
      steps (step (par R a fn (scaleOf a.toArgs))) 0 (a.maxiter.toNat - 1) s0 := by
    rw [this, Nat.zero_add]
    rfl
  show (loop (par R a fn (scaleOf a.toArgs)) fuel s0 >>= _) = _
  rw [hl]
  rfl

/-- A valid call returns or raises ValueError. -/
theorem sample_dichotomy [LawfulNumFns K] {R : Rng σ K} {fuel : Nat} {a : Args K} {g : σ} (hv : ValidMCMC a)
    (hn : 0 < a.ndim) (hf : a.maxiter.toNat ≤ fuel) :
    (∃ o, (sample R fuel a g).1 = .ok o) ∨ (sample R fuel a g).1 = .error .valueError := by
  obtain ⟨fn, s0, _, _, h⟩ := sample_steps (R := R) (g := g) hv hn hf
  rw [h]
  have hp := perIter_pos a.perc a.ndim
  rcases steps_error (f := step (par R a fn (scaleOf a.toArgs))) (e := PyErr.valueError) (fun i s => by
      by_cases hfit : i % nblocks a.ndim (par R a fn (scaleOf a.toArgs)).per * (par R a fn (scaleOf a.toArgs)).per +
          (par R a fn (scaleOf a.toArgs)).per ≤ a.ndim
      · exact Or.inl ⟨_, step_fits hp hfit s⟩
      · exact Or.inr (step_error hp hn (by omega) s)) (a.maxiter.toNat - 1) 0 s0 with ⟨s', hs⟩ | hs
  · left; rw [hs]; exact ⟨_, rfl⟩
  · right; rw [hs]; rfl

theorem sample_total [LawfulNumFns K] {R : Rng σ K} {fuel : Nat} {a : Args K} {g : σ} (hv : ValidMCMC a)
    (hn : 0 < a.ndim) (hf : a.maxiter.toNat ≤ fuel)
    (hfit : blockSize a.perc a.ndim ∣ a.ndim ∨ a.maxiter ≤ (a.ndim / blockSize a.perc a.ndim : Nat) + 1) :
    ∃ o, (sample R fuel a g).1 = .ok o := by
  obtain ⟨fn, s0, _, _, h⟩ := sample_steps (R := R) (g := g) hv hn hf
  rw [h]
  have hp := perIter_pos a.perc a.ndim
  have hle : perIter a.perc a.ndim ≤ a.ndim := by rw [perIter_eq hv.perc.1]; exact blockSize_le hv.perc.2 hn
  have hall := (fits_iff (N := a.maxiter.toNat - 1) hp hn hle).2 (by
    rw [perIter_eq hv.perc.1]
    refine hfit.imp id ?_
    generalize a.ndim / blockSize a.perc a.ndim = q
    intro h
    omega)
  have hstep : ∀ i s, i < a.maxiter.toNat - 1 → True →
      ∃ s', step (par R a fn (scaleOf a.toArgs)) i s = .ok s' ∧ True := by
    intro i s hi _
    exact ⟨_, step_fits (P := par R a fn (scaleOf a.toArgs)) hp (hall i hi) s, trivial⟩
  obtain ⟨s', hs, _⟩ := steps_total (I := fun _ _ => True) hstep (a.maxiter.toNat - 1) 0 (s := s0)
    (Nat.le_of_eq (Nat.zero_add _)) trivial
  rw [hs]
  exact ⟨_, rfl⟩

end Stochopy.MCMC

namespace Stochopy.HMC
open Sampling Spec
variable {K σ : Type} [Field K] [LinearOrder K] [NumFns K]

/-- What a completed call did, in the vocabulary of the specification. -/
theorem run_of_ok {R : Rng σ K} {a : Args K} {g : σ} {o : Sampling.Output σ K a.ndim}
    {fn : Vec (Val K) a.ndim → Val K} (hfn : a.fn = some fn) (h : (sample R a g).1 = .ok o) :
    ∃ ms s x1, Inv fn a.callback.isSome a.returnAll x1 (a.maxiter.toNat - 1) s ms ∧ FirstSample R a.toArgs g x1 ∧
      (∃ q, x1 = point q) ∧ finish a.maxiter a.returnAll s = .ok o ∧ (s.xs.length : Int) = a.maxiter ∧
      s.rng = genAt R a.ndim (!decide (a.constraints = some "Reject")) (genStart R a.toArgs g) (a.maxiter.toNat - 1) ∧
      s.evals.length = 1 + (a.maxiter.toNat - 1) *
        ((a.nleap.toNat + 2) * (2 * a.ndim) + if a.constraints = some "Reject" then 0 else 2) ∧
      ∀ k m, ms[k]? = some m → MoveOk (par R a fn (scaleOf a.toArgs))
        (genAt R a.ndim (!decide (a.constraints = some "Reject")) (genStart R a.toArgs g) k) m := by
  obtain ⟨fn', st, s, x, g', h1, h2, h3, h4, h5, h6, h7, h8, ⟨⟨ms, hI, hm⟩, hg, hev⟩, h10⟩ := sample_ok h
  rw [hfn] at h1
  cases h1
  obtain ⟨hfs, rfl⟩ := first_spec h8
  have hst := (scale_ok h4).2
  subst hst
  refine ⟨ms, s, x, hI, hfs, first_finite h8, h10, ?_, hg, hev, hm⟩
  rw [hI.len]; omega

/-- The code's order of half steps is the iterated leap-frog step. -/
theorem leapK_eq [IsStrictOrderedRing K] {n : Nat} (γ : Vec K n → Vec K n) (ε : Vec K n) (L : Nat) (z : Vec K n × Vec K n) :
    leapK γ ε L z = (verlet γ ε)^[L + 1] z := by
  have hv : ∀ z, verlet γ ε z = kickK γ (1 / 2) ε (driftK ε (kickK γ (1 / 2) ε z)) := by
    intro z
    unfold verlet kickK driftK
    dsimp only
    have : ∀ x : K, 1 / 2 * x = x / 2 := by intro x; ring
    simp only [this]
  have hk : ∀ z, kickK γ 1 ε z = kickK γ (1 / 2) ε (kickK γ (1 / 2) ε z) := by
    intro z
    unfold kickK
    refine Prod.ext rfl ?_
    funext j
    dsimp only
    ring
  unfold leapK
  rw [Function.iterate_succ_apply']
  induction L with
  | zero => rw [Function.iterate_zero, Function.iterate_zero, hv]; rfl
  | succ L ih =>
    rw [Function.iterate_succ_apply', hk, ih, Function.iterate_succ_apply', ← hv, hv (verlet γ ε _)]

theorem kinetic_fin {n : Nat} [IsStrictOrderedRing K] (p : Vec K n) : kinetic (point p) = .fin ((∑ j, p j ^ 2) / 2) := by
  have hfold : ∀ (l : List K) (c : K), (l.map (Val.fin)).foldl (· + ·) (.fin c : Val K) = .fin (c + l.sum) := by
    intro l
    induction l with
    | nil => intro c; simp
    | cons x l ih => intro c; rw [List.map_cons, List.foldl_cons, Val.fin_add, ih, List.sum_cons, add_assoc]
  unfold kinetic
  have : (List.ofFn fun j => (point p j * point p j : Val K)) = (List.ofFn fun j => p j ^ 2).map Val.fin := by
    rw [List.map_ofFn]
    congr 1
    funext j
    show Val.fin _ * Val.fin _ = _
    rw [Val.fin_mul, ← sq]
    rfl
  rw [this, hfold, zero_add, List.sum_ofFn, Val.fin_mul]
  congr 1
  ring

/-- On finite points the numerical gradient is the central difference. -/
theorem gradOf_fin [IsStrictOrderedRing K] {n : Nat} {fn : Vec (Val K) n → Val K} {φ : Vec K n → K} (hφ : ∀ x, fn (point x) = .fin (φ x)) {h : K}
    (hh : h ≠ 0) (e : Bool) : GradIs (gradOf fn none h e) (centralGradient φ h) := by
  intro x
  refine ⟨(numericalGradient fn h (emb x)).2, ?_⟩
  show Except.ok (numericalGradient fn h (emb x)) = _
  rw [show numericalGradient fn h (emb x) = ((numericalGradient fn h (emb x)).1, (numericalGradient fn h (emb x)).2) from rfl]
  congr 2
  rw [(numericalGradient_eq fn h (emb x)).1]
  funext j
  unfold centralDiff
  have e1 : Function.update (emb x) j (emb x j + .fin h) = point (Function.update x j (x j + h)) := by
    funext i
    unfold point
    by_cases hi : i = j
    · subst hi; simp [emb, Val.fin_add]
    · simp [hi, emb]
  have e2 : Function.update (emb x) j (emb x j - .fin h) = point (Function.update x j (x j - h)) := by
    funext i
    unfold point
    by_cases hi : i = j
    · subst hi; simp [emb, Val.fin_sub]
    · simp [hi, emb]
  rw [e1, e2, hφ, hφ, Val.fin_sub, Val.fin_mul, Val.divBy_fin hh]
  unfold emb centralGradient
  congr 1
  field_simp

/-- The numbers in an array without infinities and NaN. -/
def unpoint {n : Nat} (x : Vec (Val K) n) : Vec K n := fun j =>
  match x j with
  | .fin k => k
  | _ => 0

theorem unpoint_point {n : Nat} (q : Vec K n) : unpoint (point q) = q := rfl

/-- A completed chain for an objective that is finite on finite points. -/
theorem finite_run [IsStrictOrderedRing K] [LawfulNumFns K] {R : Rng σ K} (hR : R.Ok) {a : Args K} {g : σ}
    {o : Sampling.Output σ K a.ndim} {fn : Vec (Val K) a.ndim → Val K} (hfn : a.fn = some fn) {φ : Vec K a.ndim → K}
    (hφ : ∀ x, fn (point x) = .fin (φ x)) (hh : a.fdStep ≠ 0) (hj : a.jac = none) (h : (sample R a g).1 = .ok o) :
    ∃ qs ms, HmcRun R a g φ (a.nleap.toNat + 1) qs ms ∧ (a.returnAll = true → o.xall = some (qs.map point)) ∧
      o.acceptRatio = (accepted ms : K) / (a.maxiter : K) := by
  obtain ⟨ms, s, x1, hI, hfs, ⟨q1, hq1⟩, hfin, hlen, hg, hev, hm⟩ := run_of_ok hfn h
  have hP : (par R a fn (scaleOf a.toArgs)).G = gradOf fn none a.fdStep a.extraArgs := by
    show gradOf fn a.jac a.fdStep a.extraArgs = _
    rw [hj]
  have hG : GradIs (par R a fn (scaleOf a.toArgs)).G (centralGradient φ a.fdStep) := by
    rw [hP]; exact gradOf_fin hφ hh _
  -- what one move does from a finite point
  have hmove : ∀ k m q, ms[k]? = some m → m.old = point q →
      let gk := genAt R a.ndim (!decide (a.constraints = some "Reject")) (genStart R a.toArgs g) k
      let z : Vec K a.ndim × Vec K a.ndim := (q, fun j => normal R gk j)
      let z' := (verlet (centralGradient φ a.fdStep) (scaleOf a.toArgs))^[a.nleap.toNat + 1] z
      m.prop = point z'.1 ∧ (m.accepted = true ↔ a.constraints ≠ some "Reject" ∧
        Accepts (.fin (hamiltonian φ z - hamiltonian φ z')) (uniform R gk a.ndim)) := by
    intro k m q hk hq gk z z'
    obtain ⟨r, hr, h1, h2⟩ := hm k m hk
    obtain ⟨ev, he⟩ := leapfrog_fin hG (scaleOf a.toArgs) a.nleap.toNat q (drawVec R.randn a.ndim gk).1
    have hr' : leapfrog (par R a fn (scaleOf a.toArgs)).G (scaleOf a.toArgs) a.nleap.toNat m.old
        (emb (drawVec R.randn a.ndim gk).1) = .ok r := hr
    have hold : m.old = emb q := hq
    rw [hold, he] at hr'
    cases hr'
    rw [leapK_eq] at h1 h2
    have hz : (q, (drawVec R.randn a.ndim gk).1) = z := rfl
    rw [hz] at h1 h2
    refine ⟨h1, ?_⟩
    rw [h2, Bool.and_eq_true, truthy_inSearchSpace]
    refine and_congr (by
      show (!decide (a.constraints = some "Reject")) = true ↔ _
      rw [Bool.not_eq_true', decide_eq_false_iff_not]) ?_
    rw [metropolis_iff (by exact hR.rand_nonneg _) (by exact hR.rand_lt_one _)]
    have e1 : (par R a fn (scaleOf a.toArgs)).fn m.old = .fin (φ q) := by rw [hq]; exact hφ q
    have e2 : (par R a fn (scaleOf a.toArgs)).fn m.prop = .fin (φ z'.1) := by rw [h1]; exact hφ _
    have e3 : kinetic (emb (drawVec (par R a fn (scaleOf a.toArgs)).R.randn a.ndim gk).1) =
        .fin ((∑ j, z.2 j ^ 2) / 2) := kinetic_fin _
    have e4 : kinetic (emb z'.2) = .fin ((∑ j, z'.2 j ^ 2) / 2) := kinetic_fin _
    have e5 : energyDrop (.fin (φ q)) (.fin (φ z'.1)) (.fin ((∑ j, z.2 j ^ 2) / 2)) (.fin ((∑ j, z'.2 j ^ 2) / 2)) =
        (.fin (hamiltonian φ z - hamiltonian φ z') : Val K) := by
      unfold energyDrop hamiltonian
      rw [Val.fin_sub, Val.fin_add, Val.fin_sub]
      congr 1
      show φ q - φ z'.1 + _ - _ = φ q + _ - (φ z'.1 + _)
      ring
    rw [e1, e2]
    erw [e3, e4, e5]
    rfl
  -- every sample is finite
  have hxs : ∀ (k : Nat) (x : Vec (Val K) a.ndim), s.xs[k]? = some x → ∃ q, x = point q := by
    intro k
    induction k with
    | zero =>
      intro x hx
      rw [hI.first] at hx
      cases hx
      exact ⟨q1, hq1⟩
    | succ k ih =>
      intro x hx
      have hk : k < ms.length := by
        have := List.getElem?_eq_some_iff.1 hx
        obtain ⟨hlt, _⟩ := this
        have := hI.links.1
        omega
      have hmk : ms[k]? = some ms[k] := List.getElem?_eq_getElem hk
      obtain ⟨h1, h2⟩ := hI.links.2 k _ hmk
      rw [hx] at h2
      cases h2
      obtain ⟨q, hq⟩ := ih _ h1
      unfold Move.next
      split_ifs
      · exact ⟨_, (hmove k _ q hmk hq).1⟩
      · exact ⟨q, hq⟩
  have hun : ∀ (k : Nat) (x : Vec (Val K) a.ndim), s.xs[k]? = some x → point (unpoint x) = x := by
    intro k x hx
    obtain ⟨q, rfl⟩ := hxs k x hx
    rfl
  refine ⟨s.xs.map unpoint, ms.map fun m => { old := unpoint m.old, prop := unpoint m.prop, accepted := m.accepted },
    ⟨⟨?_, ?_⟩, ?_, ?_, ?_⟩, ?_, ?_⟩
  · simp [hI.links.1]
  · intro k m' hk
    rw [List.getElem?_map] at hk
    obtain ⟨m, hmk, rfl⟩ := Option.map_eq_some_iff.1 hk
    obtain ⟨h1, h2⟩ := hI.links.2 k m hmk
    rw [List.getElem?_map, List.getElem?_map, h1, h2]
    refine ⟨rfl, ?_⟩
    unfold Move.next
    dsimp only
    cases m.accepted <;> rfl
  · rw [List.length_map]; exact hlen
  · intro q hq
    rw [List.getElem?_map, hI.first] at hq
    cases hq
    rw [hq1, unpoint_point, ← hq1]
    exact hfs
  · intro k m' hk
    rw [List.getElem?_map] at hk
    obtain ⟨m, hmk, rfl⟩ := Option.map_eq_some_iff.1 hk
    obtain ⟨h1, _⟩ := hI.links.2 k m hmk
    obtain ⟨q, hq⟩ := hxs k _ h1
    obtain ⟨h2, h3⟩ := hmove k m q hmk hq
    dsimp only
    rw [hq, unpoint_point, h2, unpoint_point]
    exact ⟨rfl, h3⟩
  · intro hra
    unfold finish at hfin
    obtain ⟨idx, _, hfin⟩ := bind_ok_iff.1 hfin
    cases hfin
    show Sampling.attach a.returnAll s.xs = _
    unfold Sampling.attach
    rw [hra, if_pos rfl, List.map_map]
    congr 1
    refine List.ext_getElem (by simp) ?_
    intro k hk _
    rw [List.getElem_map]
    exact (hun k _ (List.getElem?_eq_getElem hk)).symm
  · unfold finish at hfin
    obtain ⟨idx, _, hfin⟩ := bind_ok_iff.1 hfin
    cases hfin
    show (s.nacc : K) / _ = _
    rw [hI.nacc]
    unfold accepted
    rw [List.filter_map, List.length_map]
    rfl

/-- The numerical gradient never raises. -/
theorem kick_total {n : Nat} {G : Grad K n} (hG : ∀ x, ∃ r, G x = .ok r) (st : Vec K n) (s : Phase K n) :
    ∃ s', kick G st s = .ok s' := by
  obtain ⟨r, hr⟩ := hG s.1
  unfold kick
  rw [hr]
  exact ⟨_, rfl⟩

theorem leaps_total {n : Nat} {G : Grad K n} (hG : ∀ x, ∃ r, G x = .ok r) (st : Vec K n) (k : Nat) :
    ∀ s : Phase K n, ∃ s', leaps G st k s = .ok s' := by
  induction k with
  | zero => intro s; exact ⟨s, rfl⟩
  | succ k ih =>
    intro s
    obtain ⟨s1, h1⟩ := kick_total hG st s
    unfold leaps
    rw [h1, ok_bind']
    exact ih _

theorem leapfrog_total {n : Nat} {G : Grad K n} (hG : ∀ x, ∃ r, G x = .ok r) (st : Vec K n) (k : Nat)
    (q p : Vec (Val K) n) : ∃ s', leapfrog G st k q p = .ok s' := by
  obtain ⟨s1, h1⟩ := kick_total hG (fun j => 1 / 2 * st j) (q, p, [])
  obtain ⟨s2, h2⟩ := leaps_total hG st k (drift st s1)
  unfold leapfrog
  rw [h1, ok_bind', h2, ok_bind']
  exact kick_total hG _ _

theorem iter_total {n : Nat} {P : Par σ K n} (hG : ∀ x, ∃ r, P.G x = .ok r) (s : State σ K n) : ∃ s', iter P s = .ok s' := by
  obtain ⟨r, hr⟩ := leapfrog_total hG P.step P.nleap s.xcur (fun j => .fin ((drawVec P.R.randn n s.rng).1 j))
  unfold iter
  dsimp only
  rw [hr, ok_bind']
  split_ifs <;> exact ⟨_, rfl⟩

/-- With valid arguments the call is the sequence of its moves. -/
theorem sample_steps {R : Rng σ K} {a : Args K} {g : σ} (hv : ValidHMC a) : ∃ fn s0, a.fn = some fn ∧
    s0.fs.length = 1 ∧
    (sample R a g).1 = (steps (fun _ => iter (par R a fn (scaleOf a.toArgs))) 0 (a.maxiter.toNat - 1) s0).bind
      fun s => finish a.maxiter a.returnAll s := by
  obtain ⟨fn, hfn⟩ := Option.isSome_iff_exists.1 hv.objective
  obtain ⟨s0, hs0⟩ := start_of_valid fn R (a.seeded R g) hv.x0 hv.maxiter
  obtain ⟨_, x, g', _, _, _, _, hI⟩ := start_inv hs0
  have hnl : ¬ a.nleap < 1 := by have := hv.nleap; omega
  refine ⟨fn, s0, hfn, by rw [hI.vals, List.length_map]; simpa using hI.len, ?_⟩
  unfold sample
  rw [hfn, checkStart_of_valid hv.toValidSampler, scale_of_valid hv.stepsize, decide_eq_false hnl]
  dsimp only
  have hbc : a.badCallback = false := by
    unfold Args.badCallback
    have := hv.callback
    cases hc : a.callback with
    | none => rfl
    | some b => cases b with
      | true => rfl
      | false => exact absurd hc this
  have hj : badJac a.jac = false := by
    have := hv.jac
    cases hjac : a.jac with
    | none => rfl
    | some j => cases j with
      | none => exact absurd hjac this
      | some f => rfl
  unfold rest
  rw [hj, if_neg (by simp), hbc, if_neg (by simp), hs0, ok_bind']
  rw [loop_eq _ 0]
  rfl

/-- A valid call without a gradient function returns. -/
theorem sample_total {R : Rng σ K} {a : Args K} {g : σ} (hv : ValidHMC a) (hj : a.jac = none ∨ a.maxiter = 1) :
    ∃ o, (sample R a g).1 = .ok o := by
  obtain ⟨fn, s0, _, hl0, h⟩ := sample_steps (R := R) (g := g) hv
  rw [h]
  have hstep : ∃ s', steps (fun _ => iter (par R a fn (scaleOf a.toArgs))) 0 (a.maxiter.toNat - 1) s0 = .ok s' ∧
      0 < s'.fs.length := by
    rcases hj with hj | hj
    · have hG : ∀ x, ∃ r, (par R a fn (scaleOf a.toArgs)).G x = .ok r := by
        intro x
        show ∃ r, gradOf fn a.jac a.fdStep a.extraArgs x = .ok r
        rw [hj]
        exact ⟨_, rfl⟩
      obtain ⟨s', hs, hp⟩ := steps_total (f := fun _ => iter (par R a fn (scaleOf a.toArgs)))
        (I := fun _ s => 0 < s.fs.length) (N := a.maxiter.toNat - 1) (fun i s _ hp => by
          obtain ⟨s', hs'⟩ := iter_total hG s
          refine ⟨s', hs', ?_⟩
          unfold iter at hs'
          obtain ⟨r, _, hs'⟩ := bind_ok_iff.1 hs'
          dsimp only at hs'
          have hpush : ∀ (t : State σ K a.ndim) acc hc ra, 0 < ((t.push acc).notify hc ra).fs.length := by
            intro t acc hc ra
            cases acc with
            | none => show 0 < (t.fs ++ [_]).length; simp
            | some q => show 0 < (t.fs ++ [_]).length; simp
          split_ifs at hs' <;> (cases hs'; exact hpush _ _ _ _)) (a.maxiter.toNat - 1) 0 (s := s0) (by omega)
        (by omega)
      exact ⟨s', hs, hp⟩
    · rw [hj]
      exact ⟨s0, rfl, by omega⟩
  obtain ⟨s', hs, hp⟩ := hstep
  rw [hs]
  show ∃ o, finish _ _ s' = .ok o
  unfold finish
  obtain ⟨i, hi⟩ := argmin_total hp (fun i : Fin s'.fs.length => s'.fs.get i)
  rw [hi]
  exact ⟨_, rfl⟩

/-- A gradient function makes the first iteration raise. -/
theorem sample_jac {R : Rng σ K} {a : Args K} {g : σ} (hv : ValidHMC a)
    {j : Vec (Val K) a.bounds.len → Vec (Val K) a.bounds.len} (hj : a.jac = some (some j)) (hm : 2 ≤ a.maxiter) :
    (sample R a g).1 = .error (if a.extraArgs then .typeError else .recursionError) := by
  obtain ⟨fn, s0, _, hl0, h⟩ := sample_steps (R := R) (g := g) hv
  rw [h]
  obtain ⟨k, hk⟩ : ∃ k, a.maxiter.toNat - 1 = k + 1 := ⟨a.maxiter.toNat - 2, by omega⟩
  rw [hk]
  unfold steps
  have : iter (par R a fn (scaleOf a.toArgs)) s0 = .error (if a.extraArgs then .typeError else .recursionError) := by
    unfold iter leapfrog kick
    dsimp only
    have hG : ∀ x, (par R a fn (scaleOf a.toArgs)).G x =
        .error (if a.extraArgs then .typeError else .recursionError) := by
      intro x
      show gradOf fn a.jac a.fdStep a.extraArgs x = _
      rw [hj]
      unfold gradOf
      cases a.extraArgs <;> rfl
    rw [hG]
    rfl
  rw [this]
  rfl

end Stochopy.HMC
