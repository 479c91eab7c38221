import Verif.Lemmas.SamplerSame
import Mathlib.Tactic.Positivity

/-! The samplers with coordinates multiplied and shifted. -/

set_option linter.unusedSectionVars false

namespace Stochopy
variable {K σ : Type} [Field K] [LinearOrder K] [IsStrictOrderedRing K] {n : Nat}

namespace Val

theorem add_right_comm' (a b c : Val K) : a + b + c = a + c + b := by
  cases a <;> cases b <;> cases c <;> first | rfl | skip
  show Val.fin _ = Val.fin _
  rw [add_right_comm]

theorem fin_mul_assoc (a b : K) (v : Val K) : .fin a * (.fin b * v) = .fin (a * b) * v := by
  cases v with
  | nan => rfl
  | fin k => show Val.fin _ = Val.fin _; rw [mul_assoc]
  | pinf =>
    rw [fin_mul_pinf, fin_mul_pinf]
    rcases lt_trichotomy a 0 with ha | rfl | ha <;> rcases lt_trichotomy b 0 with hb | rfl | hb
    · simp [hb, not_lt_of_gt hb, fin_mul_ninf, ha, not_lt_of_gt ha, mul_pos_of_neg_of_neg ha hb]
    · simp; rfl
    · simp [hb, fin_mul_pinf, ha, not_lt_of_gt ha, mul_neg_of_neg_of_pos ha hb, not_lt_of_gt (mul_neg_of_neg_of_pos ha hb)]
    · simp [hb, not_lt_of_gt hb, fin_mul_ninf]
    · simp; rfl
    · simp [hb, fin_mul_pinf]
    · simp [hb, not_lt_of_gt hb, fin_mul_ninf, ha, mul_neg_of_pos_of_neg ha hb, not_lt_of_gt (mul_neg_of_pos_of_neg ha hb)]
    · simp; rfl
    · simp [hb, fin_mul_pinf, ha, mul_pos ha hb]
  | ninf =>
    rw [fin_mul_ninf, fin_mul_ninf]
    rcases lt_trichotomy a 0 with ha | rfl | ha <;> rcases lt_trichotomy b 0 with hb | rfl | hb
    · simp [hb, not_lt_of_gt hb, fin_mul_pinf, ha, not_lt_of_gt ha, mul_pos_of_neg_of_neg ha hb]
    · simp; rfl
    · simp [hb, fin_mul_ninf, ha, not_lt_of_gt ha, mul_neg_of_neg_of_pos ha hb, not_lt_of_gt (mul_neg_of_neg_of_pos ha hb)]
    · simp [hb, not_lt_of_gt hb, fin_mul_pinf]
    · simp; rfl
    · simp [hb, fin_mul_ninf]
    · simp [hb, not_lt_of_gt hb, fin_mul_pinf, ha, mul_neg_of_pos_of_neg ha hb, not_lt_of_gt (mul_neg_of_pos_of_neg ha hb)]
    · simp; rfl
    · simp [hb, fin_mul_ninf, ha, mul_pos ha hb]

theorem fin_one_mul (v : Val K) : .fin 1 * v = v := by
  cases v with
  | nan => rfl
  | fin k => show Val.fin _ = _; rw [one_mul]
  | pinf => rw [fin_mul_pinf, if_pos one_pos]
  | ninf => rw [fin_mul_ninf, if_pos one_pos]

theorem fin_mul_add {s : K} (hs : s ≠ 0) (x y : Val K) : .fin s * (x + y) = .fin s * x + .fin s * y := by
  rcases lt_or_gt_of_ne hs with h | h
  · have e1 : (.fin s * .pinf : Val K) = .ninf := by rw [fin_mul_pinf, if_neg (not_lt_of_gt h), if_pos h]
    have e2 : (.fin s * .ninf : Val K) = .pinf := by rw [fin_mul_ninf, if_neg (not_lt_of_gt h), if_pos h]
    cases x <;> cases y <;> first
      | rfl
      | (show Val.fin _ = Val.fin _; rw [mul_add])
      | (simp only [e1, e2]; first | rfl | exact e1 | exact e2)
  · have e1 : (.fin s * .pinf : Val K) = .pinf := by rw [fin_mul_pinf, if_pos h]
    have e2 : (.fin s * .ninf : Val K) = .ninf := by rw [fin_mul_ninf, if_pos h]
    cases x <;> cases y <;> first
      | rfl
      | (show Val.fin _ = Val.fin _; rw [mul_add])
      | (simp only [e1, e2]; first | rfl | exact e1 | exact e2)

theorem neg_eq (x : Val K) : -x = .fin (-1) * x := by
  have h : (-1 : K) < 0 := neg_lt_zero.2 one_pos
  cases x with
  | nan => rfl
  | fin k => show Val.fin _ = Val.fin _; rw [neg_one_mul]
  | pinf => rw [fin_mul_pinf, if_neg (not_lt_of_gt h), if_pos h]; rfl
  | ninf => rw [fin_mul_ninf, if_neg (not_lt_of_gt h), if_pos h]; rfl

theorem sub_eq (x y : Val K) : x - y = x + .fin (-1) * y := by rw [← neg_eq]; rfl

theorem add_comm' (a b : Val K) : a + b = b + a := by
  cases a <;> cases b <;> first | rfl | skip
  show Val.fin _ = Val.fin _
  rw [add_comm]

theorem fin_mul_sub {s : K} (hs : s ≠ 0) (x y : Val K) : .fin s * (x - y) = .fin s * x - .fin s * y := by
  rw [sub_eq, sub_eq, fin_mul_add hs, fin_mul_assoc, fin_mul_assoc, mul_comm]

theorem sub_swap (x y : Val K) : x - y = .fin (-1) * (y - x) := by
  rw [← neg_eq]
  cases x <;> cases y <;> first | rfl | skip
  show Val.fin _ = Val.fin _
  rw [neg_add, neg_neg, add_comm]

theorem divBy_mul {s : K} (hs : 0 < s) (x : Val K) (t : K) : divBy (.fin s * x + .fin t - .fin t) s = x := by
  rw [add_sub_fin]
  cases x with
  | nan => rfl
  | fin k =>
    show divBy (.fin (s * k)) s = _
    rw [divBy_fin hs.ne', mul_div_cancel_left₀ _ hs.ne']
  | pinf => rw [fin_mul_pinf, if_pos hs]; show (if s < 0 then _ else _) = _; rw [if_neg (not_lt_of_gt hs)]
  | ninf => rw [fin_mul_ninf, if_pos hs]; show (if s < 0 then _ else _) = _; rw [if_neg (not_lt_of_gt hs)]

/-- Multiplying the length in the denominator by `c` and the factor in front too changes nothing. -/
theorem mul_divBy_scale {ε : K} (he : ε * ε = 1) {c : K} (hc : 0 < c) (a h : K) (w : Val K) :
    .fin (c * a) * divBy (.fin ε * w) (c * h) = .fin ε * (.fin a * divBy w h) := by
  have h1 : divBy (.fin ε * w) (c * h) = .fin ε * divBy w (c * h) := by
    have he' : ε = 1 ∨ ε = -1 := mul_self_eq_one_iff.1 he
    rcases he' with rfl | rfl
    · rw [fin_one_mul, fin_one_mul]
    · rw [← neg_eq, ← neg_eq]
      cases w with
      | nan => rfl
      | fin k =>
        show divBy (.fin (-k)) _ = -divBy (.fin k) _
        by_cases hh : c * h = 0
        · rw [hh, divBy_zero, divBy_zero]
          rcases lt_trichotomy k 0 with hk | rfl | hk
          · simp [hk, not_lt_of_gt hk]; rfl
          · simp; rfl
          · simp [hk, not_lt_of_gt hk]; rfl
        · rw [divBy_fin hh, divBy_fin hh, neg_div]; rfl
      | pinf => show (if c * h < 0 then _ else _) = -(if c * h < 0 then _ else _); split_ifs <;> rfl
      | ninf => show (if c * h < 0 then _ else _) = -(if c * h < 0 then _ else _); split_ifs <;> rfl
  rw [h1, fin_mul_assoc, fin_mul_assoc, mul_comm (c * a) ε, mul_comm c a, ← mul_assoc, ← fin_mul_assoc]
  congr 1
  cases w with
  | nan => rfl
  | fin k =>
    by_cases hh : h = 0
    · rw [hh, mul_zero, divBy_zero]
      split_ifs
      · rw [fin_mul_pinf, if_pos hc]
      · rw [fin_mul_ninf, if_pos hc]
      · rfl
    · rw [divBy_fin hh, divBy_fin (mul_ne_zero hc.ne' hh)]
      show Val.fin _ = Val.fin _
      congr 1
      field_simp
  | pinf =>
    show Val.fin c * (if c * h < 0 then _ else _) = if h < 0 then _ else _
    have : c * h < 0 ↔ h < 0 := by rw [mul_comm]; exact ⟨fun h1 => by by_contra h2; exact absurd h1 (not_lt.2 (mul_nonneg (not_lt.1 h2) hc.le)), fun h1 => mul_neg_of_neg_of_pos h1 hc⟩
    simp only [this]
    split_ifs
    · rw [fin_mul_ninf, if_pos hc]
    · rw [fin_mul_pinf, if_pos hc]
  | ninf =>
    show Val.fin c * (if c * h < 0 then _ else _) = if h < 0 then _ else _
    have : c * h < 0 ↔ h < 0 := by rw [mul_comm]; exact ⟨fun h1 => by by_contra h2; exact absurd h1 (not_lt.2 (mul_nonneg (not_lt.1 h2) hc.le)), fun h1 => mul_neg_of_neg_of_pos h1 hc⟩
    simp only [this]
    split_ifs
    · rw [fin_mul_pinf, if_pos hc]
    · rw [fin_mul_ninf, if_pos hc]

end Val

theorem vmirror_eq (t : Nat → K) (x : Vec (Val K) n) : vmirror t x = vaffine (fun _ => -1) t x := by
  funext j
  show _ - _ = _ + _
  rw [Val.sub_eq, Val.add_comm']

theorem vmirror_vmirror (t : Nat → K) (x : Vec (Val K) n) : vmirror t (vmirror t x) = x := by
  funext j
  unfold vmirror
  cases x j with
  | nan => rfl
  | fin k => rw [Val.fin_sub, Val.fin_sub, sub_sub_cancel]
  | pinf => rfl
  | ninf => rfl

theorem perturb_vaffine {s : Nat → K} (hs : ∀ j, s j ≠ 0) (t : Nat → K) {ε : K} {step step' : Vec K n}
    (h : ∀ j, ε * step' j = s j * step j) (j jmax : Nat) (z : Nat → K) (x : Vec (Val K) n) :
    MCMC.perturb step' j jmax (fun k => ε * z k) (vaffine s t x) = vaffine s t (MCMC.perturb step j jmax z x) := by
  funext k
  unfold MCMC.perturb vaffine
  dsimp only
  split_ifs
  · rw [Val.fin_mul_add (hs k), Val.add_right_comm', Val.fin_mul]
    congr 3
    linear_combination z (k - j) * h k
  · rfl

theorem drift_vaffine {s : Nat → K} (hs : ∀ j, s j ≠ 0) (t : Nat → K) {ε : K} {step step' : Vec K n}
    (h : ∀ j, ε * step' j = s j * step j) (q p : Vec (Val K) n) :
    (fun j => vaffine s t q j + .fin (step' j) * HMC.turn ε p j) = vaffine s t fun j => q j + .fin (step j) * p j := by
  funext j
  unfold HMC.turn vaffine
  rw [Val.fin_mul_add (hs j), Val.add_right_comm', Val.fin_mul_assoc, Val.fin_mul_assoc, ← h j, mul_comm ε]

theorem update_vaffine {s : Nat → K} (hs : ∀ j, s j ≠ 0) (t : Nat → K) (q : Vec (Val K) n) (j : Fin n) {d d' : K} (h : d' = s j * d) :
    Function.update (vaffine s t q) j (vaffine s t q j + .fin d') = vaffine s t (Function.update q j (q j + .fin d)) := by
  funext i
  by_cases hi : i = j
  · subst hi
    rw [Function.update_self]
    unfold vaffine
    rw [Function.update_self, Val.fin_mul_add (hs i), Val.add_right_comm', Val.fin_mul, h]
  · rw [Function.update_of_ne hi]
    unfold vaffine
    rw [Function.update_of_ne hi]

theorem val_sub_fin (x : Val K) (d : K) : x - .fin d = x + .fin (-d) := rfl

variable [NumFns K]

theorem gradOf_vaffine {fn fn' : Vec (Val K) n → Val K} {c ε : K} (hc : 0 < c) (he : ε = 1 ∨ ε = -1) (t : Nat → K)
    (hfn : ∀ x, fn' (vaffine (fun _ => ε * c) t x) = fn x) {h : K} {step step' : Vec K n} (hst : ∀ j, step' j = c * step j)
    {E : List (Vec (Val K) n) → List (Vec (Val K) n) → Prop} (hE : ∀ a b, b.Perm (a.map (vaffine (fun _ => ε * c) t)) →
      (ε = 1 → b = a.map (vaffine (fun _ => ε * c) t)) → E a b)
    (q : Vec (Val K) n) : ExRel (fun r r' => E r.2 r'.2 ∧ ∀ k : K, 0 < k → ∀ (p : Vec (Val K) n) j,
      .fin ε * p j - .fin (k * step' j) * r'.1 j = .fin ε * (p j - .fin (k * step j) * r.1 j))
      (.ok (HMC.numericalGradient fn h q)) (.ok (HMC.numericalGradient fn' (c * h) (vaffine (fun _ => ε * c) t q))) := by
  have hs : ∀ j : Nat, ε * c ≠ 0 := fun _ => mul_ne_zero (by rcases he with rfl | rfl <;> simp) hc.ne'
  have he2 : ε * ε = 1 := by rcases he with rfl | rfl <;> ring
  have e0 : ε ≠ 0 := by rcases he with rfl | rfl <;> simp
  obtain ⟨g1, g2⟩ := HMC.numericalGradient_eq fn h q
  obtain ⟨g1', g2'⟩ := HMC.numericalGradient_eq fn' (c * h) (vaffine (fun _ => ε * c) t q)
  have hd : ∀ j, HMC.centralDiff fn' (c * h) (vaffine (fun _ => ε * c) t q) j = .fin ε * HMC.centralDiff fn h q j := by
    intro j
    unfold HMC.centralDiff
    rcases he with rfl | rfl
    · rw [val_sub_fin, val_sub_fin, update_vaffine hs t q j (d := h) (by ring), update_vaffine hs t q j (d := -h) (by ring), hfn, hfn,
        Val.fin_one_mul]
    · rw [val_sub_fin, val_sub_fin, update_vaffine hs t q j (d := -h) (by ring), update_vaffine hs t q j (d := h) (by ring), hfn, hfn,
        Val.sub_swap]
  constructor
  · apply hE
    · rw [g2, g2', List.map_flatMap]
      refine List.Perm.flatMap_left _ fun j _ => ?_
      rcases he with rfl | rfl
      · rw [val_sub_fin, val_sub_fin, update_vaffine hs t q j (d := h) (by ring), update_vaffine hs t q j (d := -h) (by ring)]
        exact List.Perm.refl _
      · rw [val_sub_fin, val_sub_fin, update_vaffine hs t q j (d := -h) (by ring), update_vaffine hs t q j (d := h) (by ring)]
        exact List.Perm.swap _ _ _
    · rintro rfl
      rw [g2, g2', List.map_flatMap]
      congr 1
      funext j
      rw [val_sub_fin, val_sub_fin, update_vaffine hs t q j (d := h) (by ring), update_vaffine hs t q j (d := -h) (by ring)]
      rfl
  · intro k _ p j
    rw [g1, g1']
    dsimp only
    have e : (.fin (1 / 2) * (.fin ε * HMC.centralDiff fn h q j) : Val K) = .fin ε * (.fin (1 / 2) * HMC.centralDiff fn h q j) := by
      rw [Val.fin_mul_assoc, Val.fin_mul_assoc, mul_comm]
    rw [hd, Val.fin_mul_sub e0, e, hst, mul_left_comm, Val.mul_divBy_scale he2 hc]

/-! ## Whole calls -/

open Sampling

/-- `start` after the first point was made. -/
def Sampling.startOf (maxiter : Int) (callback : Option Bool) (returnAll : Bool) (fn : Vec (Val K) n → Val K)
    (first : Except PyErr (Vec (Val K) n × σ)) : Except PyErr (State σ K n) := do
  if maxiter < 0 then .error .valueError
  else
    if maxiter = 0 then .error .indexError
    else
      let x ← first
      let f := fn x.1
      let cb : CB K n :=
        { xk := x.1, x := x.1, fval := f, nit := 1, acceptRatio := 1, xall := attach returnAll [x.1], funall := attach returnAll [f] }
      .ok { xs := [x.1], fs := [f], xcur := x.1, fcur := f, nacc := 0, imin := 0, fmin := .pinf,
            cbs := if callback.isSome then [cb] else [], evals := [x.1], rng := x.2 }

variable {ψ : Vec (Val K) n → Vec (Val K) n} {T : σ → σ} {E : List (Vec (Val K) n) → List (Vec (Val K) n) → Prop}

theorem Sampling.startOf_rel (he : EvRel ψ E) (maxiter : Int) (callback : Option Bool) (ra : Bool) {fn fn' : Vec (Val K) n → Val K}
    (hfn : ∀ x, fn' (ψ x) = fn x) {x x' : Except PyErr (Vec (Val K) n × σ)}
    (hx : ExRel (fun y y' => y'.1 = ψ y.1 ∧ y'.2 = T y.2) x x') :
    ExRel (StRel ψ T E) (startOf maxiter callback ra fn x) (startOf maxiter callback ra fn' x') := by
  unfold startOf
  by_cases h1 : maxiter < 0
  · rw [if_pos h1, if_pos h1]; rfl
  rw [if_neg h1, if_neg h1]
  by_cases h2 : maxiter = 0
  · rw [if_pos h2, if_pos h2]; rfl
  · rw [if_neg h2, if_neg h2]
    refine hx.bind fun y y' hy => ?_
    obtain ⟨y1, y2⟩ := y
    obtain ⟨y1', y2'⟩ := y'
    obtain ⟨h1, h2⟩ := hy
    dsimp only at h1 h2
    subst h1 h2
    refine ⟨rfl, ?_, rfl, ?_, rfl, rfl, rfl, ?_, he.map [y1], rfl⟩
    · dsimp only; rw [hfn]
    · dsimp only; rw [hfn]
    · dsimp only
      rw [hfn]
      split_ifs
      · simp only [List.map_cons, List.map_nil, CB.map]
        cases ra <;> rfl
      · rfl

/-- `rest` after the first point was made. -/
def MCMC.restOf [IntParts K] (fuel : Nat) (perc : K) (badCallback : Bool) (maxiter : Int) (callback : Option Bool) (P : MCMC.Par σ K n)
    (first : Except PyErr (Vec (Val K) n × σ)) : Except PyErr (Sampling.Output σ K n) :=
  if ¬ (0 ≤ perc ∧ perc ≤ 1) then .error .valueError
  else if badCallback then .error .valueError
  else do
    let s ← startOf maxiter callback P.returnAll P.fn first
    let s' ← MCMC.loop P fuel s
    .ok (MCMC.finish maxiter P.returnAll s')

theorem MCMC.Same.restOf [IntParts K] {ε : K} {P P' : MCMC.Par σ K n} (h : MCMC.Same ψ T ε P P') (fuel : Nat) (perc : K)
    (bc : Bool) (maxiter : Int) (cb : Option Bool) {x x' : Except PyErr (Vec (Val K) n × σ)}
    (hx : ExRel (fun y y' => y'.1 = ψ y.1 ∧ y'.2 = T y.2) x x') :
    MCMC.restOf fuel perc bc maxiter cb P' x' = (MCMC.restOf fuel perc bc maxiter cb P x).map (Sampling.Output.map ψ T) := by
  refine ExRel.map_eq (r := fun o o' => o' = o.map ψ T) ?_ fun _ _ h => h
  unfold MCMC.restOf
  rw [h.ra]
  by_cases h1 : ¬ (0 ≤ perc ∧ perc ≤ 1)
  · rw [if_pos h1, if_pos h1]; exact rfl
  rw [if_neg h1, if_neg h1]
  cases bc
  swap
  · exact rfl
  · rw [if_neg Bool.false_ne_true, if_neg Bool.false_ne_true]
    refine (startOf_rel evRel_map maxiter cb P.returnAll h.fn hx).bind fun s s' hs => ?_
    refine (h.loop fuel hs).bind fun s s' hs => ?_
    exact MCMC.finish_rel maxiter _ hs

theorem MCMC.rest_eq [IntParts K] (R : Rng σ K) (fuel : Nat) (a : MCMC.Args K) (fn : Vec (Val K) a.ndim → Val K) (step : Vec K a.ndim)
    (g : σ) : MCMC.rest R fuel a fn step g = MCMC.restOf fuel a.perc a.badCallback a.maxiter a.callback
      { R := R, fn := fn, lower := a.lower, upper := a.upper, step := step, per := MCMC.perIter a.perc a.ndim,
        constraints := a.constraints, maxiter := a.maxiter.toNat, hasCallback := a.callback.isSome, returnAll := a.returnAll }
      (a.first R (a.seeded R g)) := rfl

/-- `rest` after the first point was made. -/
def HMC.restOf (badJac badCallback : Bool) (maxiter : Int) (callback : Option Bool) (P : HMC.Par σ K n)
    (first : Except PyErr (Vec (Val K) n × σ)) : Except PyErr (Sampling.Output σ K n) :=
  if badJac then .error .typeError
  else if badCallback then .error .valueError
  else do
    let s ← startOf maxiter callback P.returnAll P.fn first
    let s' ← HMC.loop P (maxiter.toNat - 1) s
    HMC.finish maxiter P.returnAll s'

theorem HMC.Same.restOf {ε : K} {P P' : HMC.Par σ K n} (h : HMC.Same ψ T ε E P P') (bj bc : Bool) (maxiter : Int) (cb : Option Bool)
    {x x' : Except PyErr (Vec (Val K) n × σ)} (hx : ExRel (fun y y' => y'.1 = ψ y.1 ∧ y'.2 = T y.2) x x') :
    ExRel (OutRel ψ T E) (HMC.restOf bj bc maxiter cb P x) (HMC.restOf bj bc maxiter cb P' x') := by
  unfold HMC.restOf
  rw [h.ra]
  split_ifs
  · exact rfl
  · exact rfl
  · refine (startOf_rel h.ev maxiter cb P.returnAll h.fn hx).bind fun s s' hs => ?_
    refine (h.loop _ hs).bind fun s s' hs => ?_
    exact HMC.finish_rel h.ev maxiter _ hs

theorem HMC.rest_eq (R : Rng σ K) (a : HMC.Args K) (fn : Vec (Val K) a.ndim → Val K) (step : Vec K a.ndim) (g : σ) :
    HMC.rest R a fn step g = HMC.restOf (HMC.badJac a.jac) a.badCallback a.maxiter a.callback
      { R := R, fn := fn, G := HMC.gradOf fn a.jac a.fdStep a.extraArgs, lower := a.lower, upper := a.upper, step := step,
        nleap := a.nleap.toNat, constraints := a.constraints, hasCallback := a.callback.isSome, returnAll := a.returnAll }
      (a.first R (a.seeded R g)) := rfl

/-! ## Arguments -/

theorem Sampling.checkStart_mirror (a : Sampling.Args K) (t : Nat → K) : (a.mirror t).checkStart = a.checkStart := by
  obtain ⟨_, fn, x0, _, _, _, _, _, _⟩ := a
  cases fn <;> cases x0 <;> rfl

theorem Sampling.checkStart_affine (a : Sampling.Args K) (s t : Nat → K) : (a.affine s t).checkStart = a.checkStart := by
  obtain ⟨_, fn, x0, _, _, _, _, _, _⟩ := a
  cases fn <;> cases x0 <;> rfl

theorem Sampling.scale_affine (st : StepArg K) (s t : Nat → K) (l u : Vec K n) :
    st.scale (affine s t l) (affine s t u) = (st.scale l u).map fun (v : Vec K n) (j : Fin n) => s j * v j := by
  unfold StepArg.scale affine
  cases st <;> dsimp only <;> split_ifs <;> first | rfl | skip
  all_goals
    refine congrArg Except.ok ?_
    funext j
    ring

theorem Sampling.scale_mirror (st : StepArg K) (t : Nat → K) (l u : Vec K n) :
    st.scale (mirror t u) (mirror t l) = st.scale l u := by
  unfold StepArg.scale mirror
  cases st <;> dsimp only <;> split_ifs <;> first | rfl | skip
  all_goals
    refine congrArg Except.ok ?_
    funext j
    ring

theorem Sampling.first_affine (a : Sampling.Args K) (s t : Nat → K) (R : Rng σ K) (g : σ) :
    ExRel (fun y y' => y'.1 = vaffine s t y.1 ∧ y'.2 = y.2) (a.first R g)
      ((a.affine s t).first R g : Except PyErr (Vec (Val K) a.ndim × σ)) := by
  obtain ⟨bounds, fn, x0, _, _, _, _, _, _⟩ := a
  cases x0 with
  | none =>
    refine ⟨?_, rfl⟩
    funext j
    change Fin bounds.len at j
    show Val.fin (unif (s j * bounds.get [j, 0] + t j) (s j * bounds.get [j, 1] + t j) ((drawVec R.rand bounds.len g).1 j)) =
      Val.fin (s j * unif (bounds.get [j, 0]) (bounds.get [j, 1]) ((drawVec R.rand bounds.len g).1 j) + t j)
    congr 1
    unfold unif
    ring
  | some x =>
    show ExRel _ (if x.shape = [bounds.len] then _ else if bounds.len = 1 ∧ x.shape.all (· == 1) = true then _ else _)
      (if x.shape = [bounds.len] then _ else if bounds.len = 1 ∧ x.shape.all (· == 1) = true then _ else _)
    split_ifs with h1 h2
    · exact ⟨rfl, rfl⟩
    · refine ⟨?_, rfl⟩
      funext j
      change Fin bounds.len at j
      have hj : (j : Nat) = 0 := by have := j.2; have : bounds.len = 1 := h2.1; omega
      have hg : (x.shape.map fun _ => 0).getD 0 0 = 0 := by cases x.shape <;> rfl
      show Val.fin (s ((x.shape.map fun _ => 0).getD 0 0) * _ + t ((x.shape.map fun _ => 0).getD 0 0)) = Val.fin (s j * _ + t j)
      rw [hg, hj]
      rfl
    · rfl

theorem Sampling.first_mirror (a : Sampling.Args K) (t : Nat → K) (R : Rng σ K) (T : σ → σ) (g : σ) (hx : a.x0 ≠ none) :
    ExRel (fun y y' => y'.1 = vmirror t y.1 ∧ y'.2 = T y.2) (a.first R g)
      ((a.mirror t).first R (T g) : Except PyErr (Vec (Val K) a.ndim × σ)) := by
  obtain ⟨bounds, fn, x0, _, _, _, _, _, _⟩ := a
  cases x0 with
  | none => exact absurd rfl hx
  | some x =>
    show ExRel _ (if x.shape = [bounds.len] then _ else if bounds.len = 1 ∧ x.shape.all (· == 1) = true then _ else _)
      (if x.shape = [bounds.len] then _ else if bounds.len = 1 ∧ x.shape.all (· == 1) = true then _ else _)
    split_ifs with h1 h2
    · refine ⟨?_, rfl⟩
      funext j
      exact (Val.fin_sub _ _).symm
    · refine ⟨?_, rfl⟩
      funext j
      change Fin bounds.len at j
      have hj : (j : Nat) = 0 := by have := j.2; have : bounds.len = 1 := h2.1; omega
      have hg : (x.shape.map fun _ => 0).getD 0 0 = 0 := by cases x.shape <;> rfl
      refine Eq.trans ?_ (Val.fin_sub _ _).symm
      show Val.fin (t ((x.shape.map fun _ => 0).getD 0 0) - _) = Val.fin (t j - _)
      rw [hg, hj]
      rfl
    · rfl

end Stochopy
