import Verif.Lemmas.RotationSampler
import Verif.Props.Leapfrog

/-! # The samplers in turned coordinates (C100) -/

set_option linter.unusedSectionVars false

namespace Stochopy.Props
open Stochopy Sampling Spec Matrix
variable {σ : Type} {n : Nat}

theorem turn_moves {lower upper : Vec ℝ n} (hb : ∀ j, lower j ≠ upper j) (Q : Matrix (Fin n) (Fin n) ℝ) (c : ℝ) :
    Moves (turn lower upper Q) Q fun j => c * ((1 / 2) * (upper j - lower j)) := by
  intro y z
  funext j
  unfold turn
  have e : ∀ k, Q j k * ((y k + c * (1 / 2 * (upper k - lower k)) * z k - (lower k + upper k) / 2) / ((upper k - lower k) / 2)) =
      Q j k * ((y k - (lower k + upper k) / 2) / ((upper k - lower k) / 2)) + c * (Q j k * z k) := by
    intro k
    have : upper k - lower k ≠ 0 := sub_ne_zero.2 (hb k).symm
    field_simp
    ring
  simp only [e, Finset.sum_add_distrib, ← Finset.mul_sum]
  show _ = _ + _ * ∑ k, Q j k * z k
  ring

theorem first_turn' {a : Sampling.Args ℝ} {x : NdArr ℝ} (hx : a.x0 = some x) (hsh : x.shape = [a.ndim]) (R : Rng σ ℝ) (g : σ) :
    a.first R g = .ok (point fun j => x.get [j], g) := by
  unfold Sampling.Args.first
  rw [hx]
  exact if_pos hsh

theorem first_turned {a : Sampling.Args ℝ} {x : NdArr ℝ} (hx : a.x0 = some x) (hsh : x.shape = [a.ndim])
    (Q : Matrix (Fin a.ndim) (Fin a.ndim) ℝ) (R : Rng σ ℝ) (g : σ) :
    ((a.turn Q).first R g : Except PyErr (Vec (Val ℝ) a.ndim × σ)) =
      .ok (point (turn a.low a.high Q fun j => x.get [j]), g) := by
  refine (first_turn' (a := a.turn Q) (x := x.turn a.low a.high Q)
    (by show Option.map _ a.x0 = _; rw [hx]; rfl) hsh R g).trans ?_
  congr 2
  funext j
  show Val.fin _ = Val.fin _
  congr 1
  exact dif_pos j.2

theorem checkStart_turn (a : Sampling.Args ℝ) (Q : Matrix (Fin a.ndim) (Fin a.ndim) ℝ) : (a.turn Q).checkStart = a.checkStart := by
  obtain ⟨b, fn, x0, _, _, _, _, _, _⟩ := a
  cases fn <;> cases x0 <;> rfl

theorem perIter_one (n : Nat) : MCMC.perIter (1 : ℝ) n = max 1 n := by
  unfold MCMC.perIter pyInt
  rw [one_mul, if_pos (Nat.cast_nonneg n)]
  have : IntParts.floor (n : ℝ) = (n : Int) := Int.floor_natCast n
  rw [this]
  omega

/-- C100 for `mcmc`: without constraints, moving all coordinates at once and with one step size for all of them, a starting point and an
objective that are turned (in units of the box) give the turned chain, when the normal numbers of every proposal are turned too: every
proposal, acceptance, callback and result is turned, and the same exception is raised. -/
theorem C100_mcmc {R : Rng σ ℝ} {a : MCMC.Args ℝ} {Q : Matrix (Fin a.ndim) (Fin a.ndim) ℝ} (hQ : Orthonormal Q) {T T' : σ → σ}
    (hT : R.Turns Q T T') {fuel : Nat} {g : σ} (hb : ∀ j, a.low j ≠ a.high j) (hp : a.perc = 1) (hc : a.constraints = none)
    (hseed : a.seed = none) {c : ℝ} (hstep : a.stepsize = .scalar false c) {x : NdArr ℝ} (hx : a.x0 = some x) (hsh : x.shape = [a.ndim]) :
    (MCMC.sample R fuel (a.turn Q) (T g)).1 =
      (MCMC.sample R fuel a g).1.map (Sampling.Output.map (onFinite (turn a.low a.high Q)) T) := by
  have hQ' := CMAES.orthonormal_iff.1 hQ
  have hsc : a.stepsize.scale a.lower a.upper = .ok fun j => c * ((1 / 2) * (a.high j - a.low j)) := by
    rw [hstep]; rfl
  have hsc' : ((a.turn Q).stepsize.scale (a.turn Q).lower (a.turn Q).upper : Except PyErr (Vec ℝ a.ndim)) =
      .ok fun j => c * ((1 / 2) * (a.high j - a.low j)) := hsc
  have hse : ∀ h, a.seeded R h = h := fun h => by unfold Sampling.Args.seeded; rw [hseed]
  have hse' : ∀ h, (a.turn Q).seeded R h = h := fun h => by
    unfold Sampling.Args.seeded; show (match a.seed with | some s => R.seed s | none => h) = h; rw [hseed]
  have hch : (a.turn Q).checkStart = a.checkStart := checkStart_turn a.toArgs Q
  cases hfn : a.fn with
  | none =>
    have h1 : (a.turn Q).fn = none := by show Option.map _ a.fn = _; rw [hfn]; rfl
    unfold MCMC.sample
    rw [hfn, h1]
    rfl
  | some fn =>
    have h1 : (a.turn Q).fn = some fun x => fn (onFinite (turn a.low a.high Qᵀ) x) := by
      show Option.map _ a.fn = _; rw [hfn]; rfl
    unfold MCMC.sample
    rw [hfn, h1, hch]
    cases a.checkStart with
    | error e => rfl
    | ok _ =>
      rw [hsc]
      erw [hsc']
      dsimp only
      rw [MCMC.rest_eq, hse]
      refine Eq.trans (MCMC.rest_eq R fuel (a.turn Q) _ _ (T g)) ?_
      rw [hse', first_turn' hx hsh]
      have hfi := first_turned hx hsh Q R (T g)
      refine Eq.trans (congrArg (MCMC.restOf fuel a.perc a.badCallback a.maxiter a.callback _) hfi) ?_
      refine MCMC.Turn.restOf (T' := T') (Q := Q) ?_ fuel a.perc a.badCallback a.maxiter a.callback _ g
      exact {
        fn := fun x => congrArg fn (onFinite_back (turn_back hQ' hb) x)
        moves := turn_moves hb Q c
        step := rfl
        per := by rw [hp]; exact perIter_one _
        per' := by show MCMC.perIter a.perc a.ndim = _; rw [hp]; exact perIter_one _
        cons := hc
        cons' := hc
        maxiter := rfl
        cb := rfl
        ra := rfl
        R := rfl
        turns := hT }

/-- `φ` is a polynomial of degree two with gradient `γ`. -/
theorem quadratic_sub {φ : Vec ℝ n → ℝ} {A : Fin n → Fin n → ℝ} {b : Fin n → ℝ} {c : ℝ}
    (hφ : ∀ x, φ x = (∑ i, ∑ k, A i k * x i * x k) + (∑ i, b i * x i) + c) (x v : Vec ℝ n) :
    φ (fun j => x j + v j) - φ (fun j => x j - v j) = 2 * ∑ j, ((∑ k, (A j k + A k j) * x k) + b j) * v j := by
  rw [hφ, hφ]
  have e1 : ∑ i, ∑ k, A i k * (x i + v i) * (x k + v k) - ∑ i, ∑ k, A i k * (x i - v i) * (x k - v k) =
      2 * (∑ i, ∑ k, A i k * x k * v i + ∑ i, ∑ k, A i k * x i * v k) := by
    rw [← Finset.sum_sub_distrib, ← Finset.sum_add_distrib, Finset.mul_sum]
    refine Finset.sum_congr rfl fun i _ => ?_
    rw [← Finset.sum_sub_distrib, ← Finset.sum_add_distrib, Finset.mul_sum]
    refine Finset.sum_congr rfl fun k _ => ?_
    ring
  have e2 : ∑ i, b i * (x i + v i) - ∑ i, b i * (x i - v i) = 2 * ∑ i, b i * v i := by
    rw [← Finset.sum_sub_distrib, Finset.mul_sum]
    refine Finset.sum_congr rfl fun i _ => ?_
    ring
  have e3 : ∑ j, ((∑ k, (A j k + A k j) * x k) + b j) * v j =
      ∑ i, ∑ k, A i k * x k * v i + ∑ i, ∑ k, A i k * x i * v k + ∑ i, b i * v i := by
    rw [Finset.sum_comm (f := fun i k => A i k * x i * v k), ← Finset.sum_add_distrib, ← Finset.sum_add_distrib]
    refine Finset.sum_congr rfl fun j _ => ?_
    rw [← Finset.sum_add_distrib, add_mul, Finset.sum_mul]
    congr 1
    refine Finset.sum_congr rfl fun k _ => ?_
    ring
  rw [e3]
  linarith

/-- How `turn` acts on differences. -/
theorem turn_add {lower upper : Vec ℝ n} (hb : ∀ j, lower j ≠ upper j) (Q : Matrix (Fin n) (Fin n) ℝ) (x : Vec ℝ n) (j : Fin n) (h : ℝ) :
    turn lower upper Q (Function.update x j (x j + h)) = fun k => turn lower upper Q x k +
      (upper k - lower k) * Q k j / (upper j - lower j) * h := by
  funext k
  unfold turn
  have hj : upper j - lower j ≠ 0 := sub_ne_zero.2 (hb j).symm
  have e : ∀ l, Q k l * ((Function.update x j (x j + h) l - (lower l + upper l) / 2) / ((upper l - lower l) / 2)) =
      Q k l * ((x l - (lower l + upper l) / 2) / ((upper l - lower l) / 2)) +
        if l = j then Q k j * (h / ((upper j - lower j) / 2)) else 0 := by
    intro l
    by_cases hl : l = j
    · subst hl
      rw [Function.update_self, if_pos rfl]
      ring
    · rw [Function.update_of_ne hl, if_neg hl, add_zero]
  simp only [e, Finset.sum_add_distrib, Finset.sum_ite_eq', Finset.mem_univ, if_true]
  field_simp
  ring

/-- C100 for `hmc` and objectives of degree two (normal densities), for which the finite differences are exact: a starting point and an
objective that are turned give the turned chain, when the momenta are turned too.  The points at which the gradient is estimated are not
turned (they differ from the positions along the axes), so only their number is the same.  For other objectives the finite
differences depend on the axes (`C100_hmc_cubic`). -/
theorem C100_hmc {R : Rng σ ℝ} {a : HMC.Args ℝ} {Q : Matrix (Fin a.ndim) (Fin a.ndim) ℝ} (hQ : Orthonormal Q) {T T' : σ → σ}
    (hT : R.Turns Q T T') {g : σ} (hb : ∀ j, a.low j ≠ a.high j) (hc : a.constraints = none) (hj : a.jac = none)
    (hseed : a.seed = none) {c : ℝ} (hstep : a.stepsize = .scalar false c) {x : NdArr ℝ} (hx : a.x0 = some x) (hsh : x.shape = [a.ndim])
    {fn : Vec (Val ℝ) a.ndim → Val ℝ} (hfn : a.fn = some fn) (hh : a.fdStep ≠ 0)
    (A : Fin a.ndim → Fin a.ndim → ℝ) (b : Fin a.ndim → ℝ) (d : ℝ)
    (hφ : ∀ x : Vec ℝ a.ndim, fn (point x) = .fin ((∑ i, ∑ k, A i k * x i * x k) + (∑ i, b i * x i) + d)) :
    (∀ o, (HMC.sample R a g).1 = .ok o → ∃ o', (HMC.sample R (a.turn Q) (T g)).1 = .ok o' ∧
      o' = { o.map (onFinite (turn a.low a.high Q)) T with evals := o'.evals } ∧ o'.evals.length = o.evals.length) ∧
    ∀ e, (HMC.sample R a g).1 = .error e → (HMC.sample R (a.turn Q) (T g)).1 = .error e := by
  have hQ' := CMAES.orthonormal_iff.1 hQ
  suffices h : ExRel (OutRel (onFinite (turn a.low a.high Q)) T fun l l' => l'.length = l.length) (HMC.sample R a g).1
      ((HMC.sample R (a.turn Q) (T g)).1 : Except PyErr (Sampling.Output σ ℝ a.ndim)) by
    constructor
    · intro o ho
      rw [ho] at h
      cases h' : ((HMC.sample R (a.turn Q) (T g)).1 : Except PyErr (Sampling.Output σ ℝ a.ndim)) with
      | error e => rw [h'] at h; exact h.elim
      | ok o' => rw [h'] at h; exact ⟨o', rfl, h.1, h.2⟩
    · intro e he
      rw [he] at h
      cases h' : ((HMC.sample R (a.turn Q) (T g)).1 : Except PyErr (Sampling.Output σ ℝ a.ndim)) with
      | error e => rw [h'] at h; exact congrArg Except.error (Eq.symm h)
      | ok o' => rw [h'] at h; exact h.elim
  have hsc : a.stepsize.scale a.lower a.upper = .ok fun j => c * ((1 / 2) * (a.high j - a.low j)) := by
    rw [hstep]; rfl
  have hsc' : ((a.turn Q).stepsize.scale (a.turn Q).lower (a.turn Q).upper : Except PyErr (Vec ℝ a.ndim)) =
      .ok fun j => c * ((1 / 2) * (a.high j - a.low j)) := hsc
  have hse : ∀ h, a.seeded R h = h := fun h => by unfold Sampling.Args.seeded; rw [hseed]
  have hse' : ∀ h, (a.turn Q).seeded R h = h := fun h => by
    unfold Sampling.Args.seeded; show (match a.seed with | some s => R.seed s | none => h) = h; rw [hseed]
  have hch : (a.turn Q).checkStart = a.checkStart := checkStart_turn a.toArgs Q
  have hnl : (a.turn Q).nleap = a.nleap := rfl
  have h1 : (a.turn Q).fn = some fun x => fn (onFinite (turn a.low a.high Qᵀ) x) := by
    show Option.map _ a.fn = _; rw [hfn]; rfl
  unfold HMC.sample
  rw [hfn, h1, hch, hnl]
  cases a.checkStart with
  | error e => rfl
  | ok _ =>
    cases decide (a.nleap < 1) with
    | true => rfl
    | false =>
      rw [hsc]
      erw [hsc']
      dsimp only
      have hm2 := HMC.rest_eq R a fn (fun j => c * ((1 / 2) * (a.high j - a.low j))) g
      rw [hse, first_turn' hx hsh, hj] at hm2
      have hm1 := HMC.rest_eq R (a.turn Q) (fun x => fn (onFinite (turn a.low a.high Qᵀ) x))
        (fun j => c * ((1 / 2) * (a.high j - a.low j))) (T g)
      rw [hse'] at hm1
      erw [first_turned hx hsh Q R (T g)] at hm1
      rw [hm2]
      erw [hm1]
      refine HMC.Turn.restOf (T' := T') (Q := Q) (F := turn a.low a.high Q) ?_ _ _ _ _ _ _
      exact {
        fn := fun x => congrArg fn (onFinite_back (turn_back hQ' hb) x)
        grad := fun x => by
          have hφ' : ∀ x : Vec ℝ a.ndim, fn (onFinite (turn a.low a.high Qᵀ) (point x)) =
              .fin ((fun y => (∑ i, ∑ k, A i k * y i * y k) + (∑ i, b i * y i) + d) (turn a.low a.high Qᵀ x)) := fun x => by
            rw [onFinite_point, hφ]
          refine ⟨_, _, _, _, congrArg Except.ok (Prod.ext (C53_hmc_quadratic A b d hφ hh x) rfl),
            congrArg Except.ok (Prod.ext (C53_hmc hφ' hh (turn a.low a.high Q x)).1 rfl), ?_, ?_⟩
          · exact (HMC.numericalGradient_calls (n := a.ndim) _ _ _).trans (HMC.numericalGradient_calls _ _ _).symm
          · funext j
            have e := quadratic_sub (φ := fun y => (∑ i, ∑ k, A i k * y i * y k) + (∑ i, b i * y i) + d) (fun _ => rfl) x
              fun k => (a.high k - a.low k) * Qᵀ k j / (a.high j - a.low j) * a.fdStep
            have u1 := turn_add hb Qᵀ (turn a.low a.high Q x) j a.fdStep
            have u2 := turn_add hb Qᵀ (turn a.low a.high Q x) j (-a.fdStep)
            rw [turn_back hQ' hb] at u1 u2
            have u3 : (fun k => x k + (a.high k - a.low k) * Qᵀ k j / (a.high j - a.low j) * -a.fdStep) =
                fun k => x k - (a.high k - a.low k) * Qᵀ k j / (a.high j - a.low j) * a.fdStep := by
              funext k; ring
            rw [u3, ← sub_eq_add_neg] at u2
            rw [u1, u2, e]
            have hj : a.high j - a.low j ≠ 0 := sub_ne_zero.2 (hb j).symm
            have hs : ∀ γ : Fin a.ndim → ℝ, ∑ k, γ k * ((a.high k - a.low k) * Qᵀ k j / (a.high j - a.low j) * a.fdStep) =
                a.fdStep / (a.high j - a.low j) * ∑ k, Q j k * ((a.high k - a.low k) * γ k) := by
              intro γ
              rw [Finset.mul_sum]
              refine Finset.sum_congr rfl fun k _ => ?_
              rw [transpose_apply]
              ring
            have ht : ∀ γ : Fin a.ndim → ℝ, ∑ k, Q j k * (c * ((1 / 2) * (a.high k - a.low k)) * γ k) =
                c / 2 * ∑ k, Q j k * ((a.high k - a.low k) * γ k) := by
              intro γ
              rw [Finset.mul_sum]
              refine Finset.sum_congr rfl fun k _ => ?_
              ring
            rw [hs]
            refine Eq.trans ?_ (ht _).symm
            show c * ((1 / 2) * (a.high j - a.low j)) * (2 * (a.fdStep / (a.high j - a.low j) * _) / (2 * a.fdStep)) = _
            field_simp
        moves := turn_moves hb Q c
        orth := hQ'
        step := rfl
        nleap := rfl
        cons := hc
        cons' := hc
        cb := rfl
        ra := rfl
        R := rfl
        turns := hT }

/-- For other objectives the estimated gradient is not turned: that of `x³` at the origin is `(h², 0)`, and after a rotation with cosine
3/5 its first component is `27/125 h²`, not `3/5 h²`. -/
theorem C100_hmc_cubic {h : ℝ} (hh : h ≠ 0) :
    (HMC.numericalGradient (fun x : Vec (Val ℝ) 2 => x 0 * x 0 * x 0) h (point ![0, 0])).1 = point ![h ^ 2, 0] ∧
    (HMC.numericalGradient (fun x : Vec (Val ℝ) 2 => (.fin (3 / 5) * x 0 + .fin (4 / 5) * x 1) * (.fin (3 / 5) * x 0 + .fin (4 / 5) * x 1) *
      (.fin (3 / 5) * x 0 + .fin (4 / 5) * x 1)) h (point ![0, 0])).1 0 = .fin (27 / 125 * h ^ 2) := by
  constructor
  · rw [(C53_hmc (φ := fun x : Vec ℝ 2 => x 0 * x 0 * x 0) (fun x => rfl) hh _).1]
    congr 1
    funext j
    fin_cases j
    · simp only [Fin.zero_eta, Function.update_self, Matrix.cons_val_zero]
      field_simp
      ring
    · simp
  · rw [(C53_hmc (φ := fun x : Vec ℝ 2 => (3 / 5 * x 0 + 4 / 5 * x 1) * (3 / 5 * x 0 + 4 / 5 * x 1) * (3 / 5 * x 0 + 4 / 5 * x 1))
      (fun x => rfl) hh _).1]
    show Val.fin _ = Val.fin _
    congr 1
    simp
    field_simp
    ring

end Stochopy.Props
