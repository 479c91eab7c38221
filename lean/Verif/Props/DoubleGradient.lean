import Verif.Props.Double
import Verif.Props.SamplerRun

/-!
# C87, C88: the samplers in floating point arithmetic
-/

set_option linter.unusedSectionVars false

namespace Stochopy
open Spec Concrete Double

/-! ## C87

Full claim: the derivative with respect to variable `j` is computed from the values at two points that differ from the current
position in coordinate `j` only; hence it is zero if the objective does not depend on variable `j`.  It is false in floating
point arithmetic: `x1[i] -= h; …; x1[i] += h` need not restore `x1[i]`. -/

/-- The points at which the objective is evaluated for the gradient at `x`, in order: for each `j`, two points that differ from `x`
in coordinate `j` only. -/
def ProbesOnly {K : Type} [Add K] [Neg K] {n : Nat} (h : K) (x : Vec (Val K) n) (points : List (Vec (Val K) n)) : Prop :=
  points = (List.finRange n).flatMap fun j => [Function.update x j (x j + .fin h), Function.update x j (x j - .fin h)]

namespace Double

/-- The step `1e-4` of finite differences (the default) and the objective `x`, a function of the first of two variables. -/
def fdStep : F64 := F64.of (1 / 10 ^ 4)
def firstVar (x : Vec (Val F64) 2) : Val F64 := x 0

/-- The points `(4, 1)` and `(1e-30, 1)`. -/
def four : Vec F64 2 := fun j => if j = 0 then F64.of 4 else 1
def tiny : Vec F64 2 := fun j => if j = 0 then F64.of (1 / 10 ^ 30) else 1

/-- A chain of two samples from `(4, 1)`. -/
def slopeArgs : HMC.Args F64 :=
  { bounds := wide 2, fn := some firstVar, x0 := some { shape := [2], get := fun l => if l.getD 0 0 = 0 then F64.of 4 else 1 },
    maxiter := 2, stepsize := .scalar false (F64.of (1 / 10)), constraints := none, seed := none, returnAll := true, callback := none,
    nleap := 1, jac := none, fdStep := fdStep, extraArgs := false }

end Double

/-- With `4` in place of the first coordinate, the second derivative is taken between `(3.9999999999999996, 1.0001)` and
`(4, 0.9999)`; the derivative of `x` with respect to the second variable becomes about `-2e-12`. -/
theorem C87_gradient_violated : ¬ ProbesOnly fdStep (point four) (HMC.numericalGradient firstVar fdStep (point four)).2 ∧
    (HMC.numericalGradient firstVar fdStep (point four)).1 1 < .fin (F64.of (-2 / 10 ^ 12)) ∧
    (∀ x y : Vec (Val F64) 2, x 0 = y 0 → firstVar x = firstVar y) := by
  refine ⟨?_, by decide +kernel, fun x y h => h⟩
  intro h
  have h2 : ((HMC.numericalGradient firstVar fdStep (point four)).2[2]?.map fun y => y 0) = some (.fin (F64.of 4)) := by
    rw [show (HMC.numericalGradient firstVar fdStep (point four)).2 = _ from h]
    rfl
  revert h2
  decide +kernel

/-- A coordinate that is small compared with the step is replaced by zero. -/
theorem C87_zero_violated : ∃ y ∈ (HMC.numericalGradient firstVar fdStep (point tiny)).2,
    y 1 = .fin (1 + fdStep) ∧ y 0 = .fin 0 ∧ Val.fin 0 < point tiny 0 := by
  refine ⟨Spec.HMC.above fdStep (point tiny) 1, ?_, ?_⟩
  · rw [(HMC.numericalGradient_any firstVar fdStep (point tiny)).2]
    exact List.mem_flatMap.2 ⟨1, List.mem_finRange _, List.mem_cons_self⟩
  · decide +kernel

/-- This happens in a completed call: the fourth evaluation is not at `(4, 1.0001)`. -/
theorem C87_hmc_violated : ∃ o, (HMC.sample (stream []) slopeArgs 0).1 = .ok o ∧ (stream []).Ok ∧
    ∃ y, o.evals[3]? = some y ∧ y ⟨0, by decide⟩ < .fin (F64.of 4) := by
  obtain ⟨o, h, ht⟩ := returns_iff (r := (HMC.sample (stream []) slopeArgs 0).1)
    (t := fun o => match o.evals[3]? with
      | some y => decide (y (⟨0, Nat.two_pos⟩ : Fin 2) < .fin (F64.of 4))
      | none => false) (by decide +kernel)
  cases hy : o.evals[3]? with
  | none => rw [hy] at ht; simp at ht
  | some y =>
    rw [hy] at ht
    exact ⟨o, h, stream_ok _, y, hy, of_decide_eq_true ht⟩

/-- What remains of the claim (1): it is true in exact arithmetic. -/
theorem C87_exact_partial {K : Type} [Field K] [LinearOrder K] [NumFns K] {n : Nat} (fn : Vec (Val K) n → Val K) (h : K)
    (x : Vec (Val K) n) : ProbesOnly h x (HMC.numericalGradient fn h x).2 ∧
    ∀ j, (∀ y z, (∀ i, i ≠ j → y i = z i) → fn y = fn z) → (∃ v, fn x = .fin v) → h ≠ 0 → (HMC.numericalGradient fn h x).1 j = .fin 0 := by
  refine ⟨(HMC.numericalGradient_eq fn h x).2, ?_⟩
  · intro j hj ⟨v, hv⟩ hh
    rw [(HMC.numericalGradient_eq fn h x).1]
    have e : ∀ t, fn (Function.update x j t) = .fin v := fun t =>
      (hj _ _ fun i hi => Function.update_of_ne hi _ _).trans hv
    show Val.divBy (.fin (1 / 2) * (fn _ - fn _)) h = _
    rw [e, e, Val.fin_sub, sub_self, Val.fin_mul, mul_zero, Val.divBy_fin hh, zero_div]

example : (HMC.numericalGradient (fun x : Vec (Val ℚ) 2 => x 0) (1 / 10000) (point ![4, 1])).1 1 = .fin 0 :=
  (C87_exact_partial _ _ _).2 1 (fun y z h => h 0 (by decide)) ⟨4, rfl⟩ (by norm_num)

/-- Moving a number up and down again changes it by at most the fraction `2 ^ (-51)` of the numbers involved. -/
theorem F64.back_near (x h : F64) : |(x + h - h).1 - x.1| ≤ 2 ^ (-51 : ℤ) * (|x.1| + |h.1|) ∧
    |(x - h + h).1 - x.1| ≤ 2 ^ (-51 : ℤ) * (|x.1| + |h.1|) := by
  have key : ∀ a b : ℚ, |rd (rd (a + b) - b) - a| ≤ 2 ^ (-51 : ℤ) * (|a| + |b|) := by
    intro a b
    have h1 := rd_rel (a + b)
    have h2 := rd_rel (rd (a + b) - b)
    have h3 : |a + b| ≤ |a| + |b| := abs_add_le a b
    have h4 : |rd (a + b) - b| ≤ |a| + 2 ^ (-53 : ℤ) * (|a| + |b|) := by
      have : rd (a + b) - b = a + (rd (a + b) - (a + b)) := by ring
      rw [this]
      refine (abs_add_le _ _).trans ?_
      have := mul_le_mul_of_nonneg_left h3 (by positivity : (0 : ℚ) ≤ 2 ^ (-53 : ℤ))
      linarith
    have h5 : rd (rd (a + b) - b) - a = (rd (rd (a + b) - b) - (rd (a + b) - b)) + (rd (a + b) - (a + b)) := by ring
    rw [h5]
    refine (abs_add_le _ _).trans ?_
    have ha := abs_nonneg a
    have hb := abs_nonneg b
    norm_num at h1 h2 h3 h4 ⊢
    linarith
  constructor
  · exact key x.1 h.1
  · have := key x.1 (-h.1)
    rw [abs_neg, sub_neg_eq_add, ← sub_eq_add_neg] at this
    exact this

/-- What remains of the claim (2): in floating point arithmetic, coordinate `j` is moved by the step, the following coordinates are
unchanged, and the preceding ones differ from those of the position by rounding errors. -/
theorem C87_double_partial {n : Nat} (fn : Vec (Val F64) n → Val F64) (h : F64) (x : Vec F64 n) :
    ∃ up down : Fin n → Vec F64 n,
      (HMC.numericalGradient fn h (point x)).2 = (List.finRange n).flatMap (fun j => [point (up j), point (down j)]) ∧
      ∀ j, up j j = x j + h ∧ down j j = x j - h ∧ (∀ i, j < i → up j i = x i ∧ down j i = x i) ∧
        ∀ i, i < j → |(up j i).1 - (x i).1| ≤ 2 ^ (-51 : ℤ) * (|(x i).1| + |h.1|) ∧
          |(down j i).1 - (x i).1| ≤ 2 ^ (-51 : ℤ) * (|(x i).1| + |h.1|) := by
  have hsub : ∀ a b : F64, (Val.fin a - .fin b : Val F64) = .fin (a - b) := fun a b => congrArg Val.fin (Subtype.ext (by
    show rd (a.1 + (-b).1) = rd (a.1 - b.1); rw [F64.neg_val, sub_eq_add_neg]))
  refine ⟨fun j i => if i < j then x i + h - h else if i = j then x i + h else x i,
    fun j i => if i < j then x i - h + h else if i = j then x i - h else x i, ?_, ?_⟩
  · rw [(HMC.numericalGradient_any fn h (point x)).2]
    congr 1
    funext j
    refine congrArg₂ (fun a b => [a, b]) ?_ ?_
    · funext i
      unfold HMC.above point
      dsimp only
      split_ifs
      · exact hsub _ _
      · rfl
      · rfl
    · funext i
      unfold HMC.below point
      dsimp only
      split_ifs
      · rw [hsub]; rfl
      · exact hsub _ _
      · rfl
  · intro j
    refine ⟨by simp, by simp, fun i hi => ?_, fun i hi => ?_⟩
    · simp [hi.not_gt, hi.ne']
    · simp only [hi, if_true]
      exact F64.back_near _ _

/-- The description of complete runs, for the run above. -/
example : ∃ o X gs E B, (HMC.sample (stream []) slopeArgs 0).1 = .ok o ∧
    Spec.HMC.Run (HMC.setting (stream []) slopeArgs firstVar) (slopeArgs.seeded (stream []) 0) X gs E B o := by
  obtain ⟨o, h, -⟩ := C87_hmc_violated
  obtain ⟨X, gs, E, B, hr⟩ := C82_hmc (stream_ok []) (a := slopeArgs) rfl h
  exact ⟨o, X, gs, E, B, h, hr⟩

/-! ## C88 -/

section
variable {K σ : Type} [AddZeroClass K] [One K] [Sub K] [Mul K] [Div K] [Neg K] [NatCast K] [IntCast K] [Pow K ℕ] [ArrayOps K] [LinearOrder K]
  [IntParts K] [NumFns K] [NegativeLog K] [RoundedOps K] {R : Rng σ K} {fuel : Nat} {g : σ}

theorem Spec.Chain.First.inside {n : Nat} {c : Chain.Setting σ K n} {g' : σ} {x : Vec (Val K) n} (hR : c.R.Ok) (hs : c.start = none)
    (hb : ∀ j, c.lower j ≤ c.upper j) (h : Chain.First c g x g') : Inside c.lower c.upper x := by
  rcases h with ⟨q, h, -⟩ | ⟨-, u, hu, rfl⟩
  · rw [hs] at h; cases h
  · intro j
    have hj : u j = (c.R.rand ((fun g => (c.R.rand g).2)^[j.val] g)).1 := congrFun (congrArg Prod.fst hu) j
    have := RoundedOps.unif_mem (hb j) (hR.rand_nonneg ((fun g => (c.R.rand g).2)^[j.val] g)) (hR.rand_lt_one _)
    rw [← hj] at this
    exact this

/-- Without `x0` the first sample of 'mcmc' is inside the bounds, also with rounding; it is the first point that is evaluated
and recorded. -/
theorem C88_mcmc (hR : R.Ok) {a : MCMC.Args K} {o : Sampling.Output σ K a.ndim} (hx : a.x0 = none)
    (hb : ∀ j : Fin a.ndim, a.bounds.get [j, 0] ≤ a.bounds.get [j, 1]) (h : (MCMC.sample R fuel a g).1 = .ok o) :
    ∃ x, o.evals[0]? = some x ∧ (∀ xs, o.xall = some xs → xs[0]? = some x) ∧
      Inside (fun j => a.bounds.get [j, 0]) (fun j => a.bounds.get [j, 1]) x := by
  obtain ⟨fn, -, -, -, hfn, -⟩ := MCMC.sample_states h
  obtain ⟨X, gs, Y, B, hr⟩ := C81_mcmc hR hfn h
  refine ⟨X 0, ?_, ?_, hr.first.inside hR (by simp [MCMC.setting, Sampling.Args.given, hx]) hb⟩
  · by_cases hrej : (MCMC.setting R a fn).reject
    · rw [hr.evaluated.1 hrej]; rfl
    · rw [hr.evaluated.2 hrej]; rfl
  · intro xs hxs
    have h1 := hr.atleast
    cases hh : a.returnAll with
    | false => rw [(hr.report.nohistory hh).1] at hxs; cases hxs
    | true =>
      rw [(hr.report.history hh).1] at hxs
      cases hxs
      rw [List.getElem?_map, List.getElem?_range (by omega)]
      rfl

/-- Without `x0` the first sample of 'hmc' is inside the bounds, also with rounding. -/
theorem C88_hmc (hR : R.Ok) {a : HMC.Args K} {o : Sampling.Output σ K a.ndim} (hx : a.x0 = none)
    (hb : ∀ j : Fin a.ndim, a.bounds.get [j, 0] ≤ a.bounds.get [j, 1]) (h : (HMC.sample R a g).1 = .ok o) :
    ∃ x, o.evals[0]? = some x ∧ (∀ xs, o.xall = some xs → xs[0]? = some x) ∧
      Inside (fun j => a.bounds.get [j, 0]) (fun j => a.bounds.get [j, 1]) x := by
  obtain ⟨fn, -, -, -, hfn, -⟩ := HMC.sample_states h
  obtain ⟨X, gs, E, B, hr⟩ := C82_hmc hR hfn h
  refine ⟨X 0, by rw [hr.evaluated]; rfl, ?_, hr.first.inside hR (by simp [HMC.setting, Sampling.Args.given, hx]) hb⟩
  intro xs hxs
  have h1 := hr.atleast
  cases hh : a.returnAll with
  | false => rw [(hr.report.nohistory hh).1] at hxs; cases hxs
  | true =>
    rw [(hr.report.history hh).1] at hxs
    cases hxs
    rw [List.getElem?_map, List.getElem?_range (by omega)]
    rfl

end

namespace Double
def freeHmc : HMC.Args F64 := { slopeArgs with x0 := none }
def freeMcmc : MCMC.Args F64 := { slopeArgs with x0 := none, perc := 1 }
end Double

/-- Chains from a random first sample in `[-5.12, 5.12]²`, in floating point arithmetic. -/
example : (∃ o, (HMC.sample (stream [1 / 3, 999 / 1000]) freeHmc 0).1 = .ok o ∧ ∃ x, o.evals[0]? = some x ∧
      Inside (fun j => (wide 2).get [j, 0]) (fun j => (wide 2).get [j, 1]) x) ∧
    ∃ o, (MCMC.sample (stream [1 / 3, 999 / 1000]) 10 freeMcmc 0).1 = .ok o ∧ ∃ x, o.evals[0]? = some x ∧
      Inside (fun j => (wide 2).get [j, 0]) (fun j => (wide 2).get [j, 1]) x := by
  have hb : ∀ j : Fin 2, (wide 2).get [j, 0] ≤ (wide 2).get [j, 1] := by decide +kernel
  constructor
  · obtain ⟨o, h, -⟩ := returns_iff (r := (HMC.sample (stream [1 / 3, 999 / 1000]) freeHmc 0).1)
      (t := fun _ => true) (by decide +kernel)
    obtain ⟨x, h1, -, h2⟩ := C88_hmc (stream_ok _) (a := freeHmc) rfl hb h
    exact ⟨o, h, x, h1, h2⟩
  · obtain ⟨o, h, -⟩ := returns_iff (r := (MCMC.sample (stream [1 / 3, 999 / 1000]) 10 freeMcmc 0).1)
      (t := fun _ => true) (by decide +kernel)
    obtain ⟨x, h1, -, h2⟩ := C88_mcmc (stream_ok _) (a := freeMcmc) rfl hb h
    exact ⟨o, h, x, h1, h2⟩

end Stochopy
