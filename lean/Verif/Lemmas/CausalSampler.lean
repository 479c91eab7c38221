import Verif.Lemmas.Causal
import Verif.Lemmas.MCMC
import Verif.Lemmas.HMC

/-! Chains for two objectives that agree on the points asked for (continued from `Lemmas/Causal.lean`). -/

set_option linter.unusedSectionVars false

namespace Stochopy
open Spec Sampling

variable {K σ : Type} [AddZeroClass K] [One K] [Sub K] [Mul K] [Div K] [Neg K] [NatCast K] [IntCast K] [Pow K ℕ] [ArrayOps K] [LinearOrder K] [NumFns K]
variable {n N : Nat} {fn fn' : Vec (Val K) n → Val K}

local notation "agrees" => SameAnswers (fun _ : Nat => fn) (fun _ : Nat => fn') N

theorem SameAnswers.mem {X V : Type} {f f' : X → V} {N : Nat} {l : List X}
    (h : SameAnswers (fun _ : Nat => f) (fun _ : Nat => f') N l) (hl : l.length ≤ N) {x : X} (hx : x ∈ l) : f x = f' x := by
  obtain ⟨k, hk⟩ := List.mem_iff_getElem?.1 hx
  exact h k x (lt_of_lt_of_le (List.getElem?_eq_some_iff.1 hk).1 hl) hk

namespace Sampling

theorem start_causal (a : Args K) {fn fn' : Vec (Val K) a.ndim → Val K} (R : Rng σ K) (g : σ) :
    Causal N (SameAnswers (fun _ : Nat => fn) (fun _ : Nat => fn') N) State.evals (start a fn R g) (start a fn' R g) := by
  unfold start
  refine Causal.ite (Causal.refl _ _ _ _) (Causal.ite (Causal.refl _ _ _ _) (Causal.bind_left fun x _ => ?_))
  refine Causal.ask (fun r hr ha hl => ?_) (fun r r' hr hr' => ?_)
  · cases hr
    have he : fn x.1 = fn' x.1 := SameAnswers.mem ha hl (List.mem_singleton.2 rfl)
    rw [he]
  · cases hr; cases hr'
    rfl

theorem push_evals (s : State σ K n) (acc : Option (Vec (Val K) n × Val K)) (b c : Bool) : ((s.push acc).notify b c).evals = s.evals := by
  cases acc <;> rfl

end Sampling

namespace MCMC

/-- The parameters with another objective. -/
def Par.withFn (P : Par σ K n) (f : Vec (Val K) n → Val K) : Par σ K n := { P with fn := f }

variable {P : Par σ K n}

theorem block_causal (j : Nat) (s : State σ K n) :
    Causal N agrees State.evals (block (P.withFn fn) j s) (block (P.withFn fn') j s) := by
  unfold block
  dsimp only [Par.withFn]
  refine Causal.ite (Causal.refl _ _ _ _) (Causal.ite (Causal.ask (fun r hr ha hl => ?_) (fun r r' hr hr' => ?_)) (Causal.refl _ _ _ _))
  · rw [← hr]
    cases hr
    rw [push_evals] at ha hl
    have he := SameAnswers.mem ha hl (List.mem_append_right _ (List.mem_singleton.2 rfl))
    rw [he]
  · cases hr; cases hr'
    rw [push_evals, push_evals]

theorem block_le {j : Nat} {s t : State σ K n} (h : block P j s = .ok t) : s.evals <+: t.evals := by
  unfold block at h
  dsimp only at h
  split_ifs at h
  all_goals
    cases h
    rw [push_evals]
  · exact List.prefix_append _ _
  · exact List.prefix_append _ _

theorem sweep_le {js : List Nat} {s t : State σ K n} (h : sweep P js s = .ok t) : s.evals <+: t.evals := by
  induction js generalizing s with
  | nil => cases h; exact List.prefix_rfl
  | cons j js ih =>
    unfold sweep at h
    obtain ⟨r, hr, h⟩ := bind_ok_iff.1 h
    split_ifs at h
    · cases h; exact block_le hr
    · exact (block_le hr).trans (ih h)

theorem sweep_causal (js : List Nat) (s : State σ K n) :
    Causal N agrees State.evals (sweep (P.withFn fn) js s) (sweep (P.withFn fn') js s) := by
  induction js generalizing s with
  | nil => exact Causal.refl _ _ _ _
  | cons j js ih =>
    unfold sweep
    refine (block_causal j s).bind sameAnswers_prefix
      (fun r => Causal.ite (p := r.xs.length = P.maxiter) (Causal.refl _ _ _ _) (ih r)) (fun r t ht => ?_) (fun r t ht => ?_) <;>
    · split_ifs at ht
      · cases ht; exact List.prefix_rfl
      · exact sweep_le ht

theorem loop_le {fuel : Nat} {s t : State σ K n} (h : loop P fuel s = .ok t) : s.evals <+: t.evals := by
  induction fuel generalizing s with
  | zero =>
    unfold loop at h
    split_ifs at h
    cases h; exact List.prefix_rfl
  | succ k ih =>
    unfold loop at h
    split_ifs at h
    · obtain ⟨r, hr, h⟩ := bind_ok_iff.1 h
      exact (sweep_le hr).trans (ih h)
    · cases h; exact List.prefix_rfl

theorem loop_causal (fuel : Nat) (s : State σ K n) :
    Causal N agrees State.evals (loop (P.withFn fn) fuel s) (loop (P.withFn fn') fuel s) := by
  induction fuel generalizing s with
  | zero => exact Causal.refl _ _ _ _
  | succ k ih =>
    unfold loop
    refine Causal.ite (p := s.xs.length < P.maxiter) ?_ (Causal.refl _ _ _ _)
    exact (sweep_causal (P := P) (starts n P.per) s).bind sameAnswers_prefix (fun r => ih r) (fun r t ht => loop_le ht) (fun r t ht => loop_le ht)

theorem rest_causal [IntParts K] (R : Rng σ K) (fuel : Nat) (a : Args K) {fn fn' : Vec (Val K) a.ndim → Val K} (step : Vec K a.ndim) (g : σ) :
    Causal N (SameAnswers (fun _ : Nat => fn) (fun _ : Nat => fn') N) Sampling.Output.evals (rest R fuel a fn step g) (rest R fuel a fn' step g) := by
  unfold rest
  refine Causal.ite (Causal.refl _ _ _ _) (Causal.ite (Causal.refl _ _ _ _) ?_)
  refine (start_causal a.toArgs R _).bind sameAnswers_prefix (fun s => ?_) (fun s t ht => ?_) (fun s t ht => ?_)
  · refine Causal.bind_right (ev := State.evals)
      (loop_causal (P := { R := R, fn := fn, lower := a.lower, upper := a.upper, step := step,
                           per := perIter a.perc a.ndim, constraints := a.constraints, maxiter := a.maxiter.toNat,
                           hasCallback := a.callback.isSome, returnAll := a.returnAll })
        fuel s) (fun s t ht => ?_) sameAnswers_prefix
    cases ht
    rfl
  · obtain ⟨r, hr, ht⟩ := bind_ok_iff.1 ht
    cases ht
    exact loop_le hr
  · obtain ⟨r, hr, ht⟩ := bind_ok_iff.1 ht
    cases ht
    exact loop_le hr

end MCMC

namespace HMC

variable {h : K} {jac : Option (Option (Vec (Val K) n → Vec (Val K) n))} {extra : Bool}

theorem gradOf_congr {x : Vec (Val K) n} {r : Vec (Val K) n × List (Vec (Val K) n)} (hr : gradOf fn jac h extra x = .ok r)
    (he : ∀ y ∈ r.2, fn y = fn' y) : gradOf fn' jac h extra x = .ok r := by
  unfold gradOf at hr ⊢
  cases jac with
  | some j => dsimp only at hr; split_ifs at hr
  | none =>
    dsimp only at hr ⊢
    cases hr
    rw [(numericalGradient_any fn h x).2] at he
    have h1 : ∀ j, fn (above h x j) = fn' (above h x j) ∧ fn (below h x j) = fn' (below h x j) := fun j =>
      ⟨he _ (List.mem_flatMap.2 ⟨j, List.mem_finRange _, by simp⟩), he _ (List.mem_flatMap.2 ⟨j, List.mem_finRange _, by simp⟩)⟩
    congr 1
    refine Prod.ext ?_ ?_
    · rw [(numericalGradient_any fn h x).1, (numericalGradient_any fn' h x).1]
      funext j
      rw [(h1 j).1, (h1 j).2]
    · rw [(numericalGradient_any fn h x).2, (numericalGradient_any fn' h x).2]

theorem gradOf_points {x : Vec (Val K) n} {r r' : Vec (Val K) n × List (Vec (Val K) n)} (hr : gradOf fn jac h extra x = .ok r)
    (hr' : gradOf fn' jac h extra x = .ok r') : r.2 = r'.2 := by
  unfold gradOf at hr hr'
  cases jac with
  | some j => dsimp only at hr; split_ifs at hr
  | none =>
    cases hr; cases hr'
    rw [(numericalGradient_any fn h x).2, (numericalGradient_any fn' h x).2]

theorem kick_le {G : Grad K n} {step : Vec K n} {s t : Phase K n} (L : List (Vec (Val K) n)) (hk : kick G step s = .ok t) :
    L ++ s.2.2 <+: L ++ t.2.2 := by
  unfold kick at hk
  obtain ⟨r, -, hk⟩ := bind_ok_iff.1 hk
  cases hk
  rw [← List.append_assoc]
  exact List.prefix_append _ _

theorem kick_causal (L : List (Vec (Val K) n)) (step : Vec K n) (s : Phase K n) :
    Causal N agrees (fun r => L ++ r.2.2) (kick (gradOf fn jac h extra) step s) (kick (gradOf fn' jac h extra) step s) := by
  unfold kick
  refine Causal.ask (fun r hr ha hl => ?_) (fun r r' hr hr' => ?_)
  · obtain ⟨q, hq, hr⟩ := bind_ok_iff.1 hr
    cases hr
    have := gradOf_congr hq fun y hy => SameAnswers.mem ha hl (List.mem_append_right _ (List.mem_append_right _ hy))
    rw [this]
    rfl
  · obtain ⟨q, hq, hr⟩ := bind_ok_iff.1 hr
    obtain ⟨q', hq', hr'⟩ := bind_ok_iff.1 hr'
    cases hr; cases hr'
    dsimp only
    rw [gradOf_points hq hq']

theorem leaps_le {G : Grad K n} {step : Vec K n} {k : Nat} {s t : Phase K n} (L : List (Vec (Val K) n))
    (hk : leaps G step k s = .ok t) : L ++ s.2.2 <+: L ++ t.2.2 := by
  induction k generalizing s with
  | zero => cases hk; exact List.prefix_rfl
  | succ k ih =>
    unfold leaps at hk
    obtain ⟨r, hr, hk⟩ := bind_ok_iff.1 hk
    exact (kick_le L hr).trans (ih (s := drift step r) hk)

theorem leaps_causal (L : List (Vec (Val K) n)) (step : Vec K n) (k : Nat) (s : Phase K n) :
    Causal N agrees (fun r => L ++ r.2.2) (leaps (gradOf fn jac h extra) step k s) (leaps (gradOf fn' jac h extra) step k s) := by
  induction k generalizing s with
  | zero => exact Causal.refl _ _ _ _
  | succ k ih =>
    unfold leaps
    exact (kick_causal L step s).bind sameAnswers_prefix (fun r => ih _) (fun r t ht => leaps_le (s := drift step r) L ht)
      (fun r t ht => leaps_le (s := drift step r) L ht)

theorem leapfrog_le {G : Grad K n} {step : Vec K n} {k : Nat} {q p : Vec (Val K) n} {t : Phase K n} (L : List (Vec (Val K) n))
    (hk : leapfrog G step k q p = .ok t) : L <+: L ++ t.2.2 := List.prefix_append _ _

theorem leapfrog_causal (L : List (Vec (Val K) n)) (step : Vec K n) (k : Nat) (q p : Vec (Val K) n) :
    Causal N agrees (fun r => L ++ r.2.2) (leapfrog (gradOf fn jac h extra) step k q p) (leapfrog (gradOf fn' jac h extra) step k q p) := by
  unfold leapfrog
  refine (kick_causal L _ _).bind sameAnswers_prefix (fun r => ?_) (fun r t ht => ?_) (fun r t ht => ?_)
  · exact (leaps_causal L _ _ _).bind sameAnswers_prefix (fun r => kick_causal L _ _) (fun r t ht => kick_le L ht) (fun r t ht => kick_le L ht)
  · obtain ⟨u, hu, ht⟩ := bind_ok_iff.1 ht
    exact (leaps_le (s := drift step r) L hu).trans (kick_le L ht)
  · obtain ⟨u, hu, ht⟩ := bind_ok_iff.1 ht
    exact (leaps_le (s := drift step r) L hu).trans (kick_le L ht)

/-- The parameters with another objective. -/
def Par.withFn (P : Par σ K n) (jac : Option (Option (Vec (Val K) n → Vec (Val K) n))) (h : K) (extra : Bool)
    (f : Vec (Val K) n → Val K) : Par σ K n := { P with fn := f, G := gradOf f jac h extra }

variable {P : Par σ K n}

theorem iter_le {s t : State σ K n} (hi : iter P s = .ok t) : s.evals <+: t.evals := by
  unfold iter at hi
  obtain ⟨r, -, hi⟩ := bind_ok_iff.1 hi
  dsimp only at hi
  split_ifs at hi
  all_goals
    cases hi
    rw [push_evals]
  · exact (List.prefix_append _ _).trans (List.prefix_append _ _)
  · exact (List.prefix_append _ _).trans (List.prefix_append _ _)
  · exact List.prefix_append _ _

theorem iter_causal (s : State σ K n) :
    Causal N agrees State.evals (iter (P.withFn jac h extra fn) s) (iter (P.withFn jac h extra fn') s) := by
  unfold iter
  refine (leapfrog_causal (jac := jac) (h := h) (extra := extra) s.evals P.step P.nleap s.xcur _).bind sameAnswers_prefix (fun r => ?_)
    (fun r t ht => ?_) (fun r t ht => ?_)
  · dsimp only [Par.withFn]
    refine Causal.ite (Causal.ask (fun r hr ha hl => ?_) (fun r r' hr hr' => ?_)) (Causal.refl _ _ _ _)
    · rw [← hr]
      cases hr
      rw [push_evals] at ha hl
      have h1 : fn s.xcur = fn' s.xcur := SameAnswers.mem ha hl (List.mem_append_right _ (List.mem_cons_self))
      have h2 : fn r.1 = fn' r.1 := SameAnswers.mem ha hl (List.mem_append_right _ (List.mem_cons_of_mem _ List.mem_cons_self))
      rw [h1, h2]
      rfl
    · cases hr; cases hr'
      rw [push_evals, push_evals]
  all_goals
    dsimp only at ht
    split_ifs at ht
    all_goals
      cases ht
      rw [push_evals]
    · exact List.prefix_append _ _
    · exact List.prefix_append _ _

theorem loop_le {k : Nat} {s t : State σ K n} (hk : loop P k s = .ok t) : s.evals <+: t.evals := by
  induction k generalizing s with
  | zero => cases hk; exact List.prefix_rfl
  | succ k ih =>
    unfold loop at hk
    obtain ⟨r, hr, hk⟩ := bind_ok_iff.1 hk
    exact (iter_le hr).trans (ih hk)

theorem loop_causal (k : Nat) (s : State σ K n) :
    Causal N agrees State.evals (loop (P.withFn jac h extra fn) k s) (loop (P.withFn jac h extra fn') k s) := by
  induction k generalizing s with
  | zero => exact Causal.refl _ _ _ _
  | succ k ih =>
    unfold loop
    exact (iter_causal s).bind sameAnswers_prefix (fun r => ih r) (fun r t ht => loop_le ht) (fun r t ht => loop_le ht)

theorem finish_evals {mi : Int} {ra : Bool} {s : State σ K n} {o : Sampling.Output σ K n} (hf : finish mi ra s = .ok o) : o.evals = s.evals := by
  unfold finish at hf
  obtain ⟨i, -, hf⟩ := bind_ok_iff.1 hf
  cases hf
  rfl

theorem rest_causal (R : Rng σ K) (a : Args K) {fn fn' : Vec (Val K) a.ndim → Val K} (step : Vec K a.ndim) (g : σ) :
    Causal N (SameAnswers (fun _ : Nat => fn) (fun _ : Nat => fn') N) Sampling.Output.evals (rest R a fn step g) (rest R a fn' step g) := by
  unfold rest
  refine Causal.ite (Causal.refl _ _ _ _) (Causal.ite (Causal.refl _ _ _ _) ?_)
  refine (start_causal a.toArgs R _).bind sameAnswers_prefix (fun s => ?_) (fun s t ht => ?_) (fun s t ht => ?_)
  · exact Causal.bind_right (ev := State.evals)
      (loop_causal (jac := a.jac) (h := a.fdStep) (extra := a.extraArgs)
        (P := { R := R, fn := fn, G := gradOf fn a.jac a.fdStep a.extraArgs, lower := a.lower, upper := a.upper,
                step := step, nleap := a.nleap.toNat, constraints := a.constraints,
                hasCallback := a.callback.isSome, returnAll := a.returnAll }) (a.maxiter.toNat - 1) s)
      (fun s t ht => finish_evals ht) sameAnswers_prefix
  · obtain ⟨r, hr, ht⟩ := bind_ok_iff.1 ht
    rw [finish_evals ht]
    exact loop_le hr
  · obtain ⟨r, hr, ht⟩ := bind_ok_iff.1 ht
    rw [finish_evals ht]
    exact loop_le hr

end HMC

end Stochopy
