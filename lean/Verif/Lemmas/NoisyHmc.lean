import Verif.Spec.NoisyHmc
import Verif.Lemmas.NoiseSampler

/-! # 'hmc' with a noisy objective: the integrator and the test -/

set_option linter.unusedSectionVars false

namespace Stochopy.HMC
open Sampling Spec

section Any
variable {K σ : Type} [Zero K] [One K] [Add K] [Sub K] [Mul K] [Div K] [Neg K] [NatCast K] [IntCast K] [Pow K ℕ] [ArrayOps K] [LinearOrder K] [NumFns K] {n : Nat}

theorem gradStepAns_take (ans : Nat → Vec (Val K) n → Val K) (r : Nat) (h : K) (x : Vec (Val K) n) (k : Nat) (hk : k ≤ n) :
    ((List.finRange n).take k).foldl (gradStepAns ans r h) (x, x, [], []) =
      ((fun i => if i.val < k then x i - .fin h + .fin h else x i), (fun i => if i.val < k then x i + .fin h - .fin h else x i),
       ((List.finRange n).take k).map (fun j : Fin n => ans (r + 2 * j.val) (above h x j) - ans (r + 2 * j.val + 1) (below h x j)),
       ((List.finRange n).take k).flatMap fun j => [above h x j, below h x j]) := by
  induction k with
  | zero => simp
  | succ k ih =>
    have hk' : k < n := hk
    have ht : (List.finRange n).take (k + 1) = (List.finRange n).take k ++ [⟨k, hk'⟩] := by
      rw [List.take_add_one, List.getElem?_eq_getElem (by simpa using hk')]
      simp
    have hl : (((List.finRange n).take k).flatMap fun j => [above h x j, below h x j]).length = 2 * k := by
      rw [List.length_flatMap]
      simp [Nat.mul_comm, Nat.min_eq_left hk'.le]
    rw [ht, List.foldl_append, ih (by omega), List.map_append, List.flatMap_append]
    have e1 : Function.update (fun i : Fin n => if i.val < k then x i - .fin h + .fin h else x i) ⟨k, hk'⟩ (x ⟨k, hk'⟩ - .fin h) =
        below h x ⟨k, hk'⟩ := by
      funext i
      unfold below
      by_cases hi : i = ⟨k, hk'⟩
      · subst hi; simp
      · rw [Function.update_of_ne hi, if_neg hi]; rfl
    have e2 : Function.update (fun i : Fin n => if i.val < k then x i + .fin h - .fin h else x i) ⟨k, hk'⟩ (x ⟨k, hk'⟩ + .fin h) =
        above h x ⟨k, hk'⟩ := by
      funext i
      unfold above
      by_cases hi : i = ⟨k, hk'⟩
      · subst hi; simp
      · rw [Function.update_of_ne hi, if_neg hi]; rfl
    simp only [List.foldl_cons, List.foldl_nil]
    unfold gradStepAns
    simp only [lt_self_iff_false, if_false, e1, e2, hl]
    refine Prod.ext ?_ (Prod.ext ?_ (Prod.ext ?_ ?_))
    · funext i
      by_cases hi : i = ⟨k, hk'⟩
      · subst hi; simp [below]
      · have hne : i.val ≠ k := fun hh => hi (Fin.ext hh)
        have hlt : i.val < k + 1 ↔ i.val < k := by omega
        dsimp only
        rw [Function.update_of_ne hi]
        unfold below
        rw [if_neg hi]
        simp only [hlt]
        rfl
    · funext i
      by_cases hi : i = ⟨k, hk'⟩
      · subst hi; simp [above]
      · have hne : i.val ≠ k := fun hh => hi (Fin.ext hh)
        have hlt : i.val < k + 1 ↔ i.val < k := by omega
        dsimp only
        rw [Function.update_of_ne hi]
        unfold above
        rw [if_neg hi]
        simp only [hlt]
        rfl
    · rfl
    · simp

/-- `numerical_gradient` for a noisy objective, in any arithmetic. -/
theorem numericalGradientAns_any (ans : Nat → Vec (Val K) n → Val K) (r : Nat) (h : K) (x : Vec (Val K) n) :
    (numericalGradientAns ans r h x).1 =
      (fun j : Fin n => Val.divBy (.fin (1 / 2) * (ans (r + 2 * j.val) (above h x j) - ans (r + 2 * j.val + 1) (below h x j))) h) ∧
    (numericalGradientAns ans r h x).2 = (List.finRange n).flatMap fun j => [above h x j, below h x j] := by
  have := gradStepAns_take ans r h x n le_rfl
  rw [List.take_of_length_le (by simp)] at this
  unfold numericalGradientAns
  rw [this]
  refine ⟨?_, rfl⟩
  funext j
  simp

end Any

variable {K σ : Type} [Field K] [LinearOrder K] [NumFns K] {n : Nat}

/-- On finite points the gradient evaluated from request `r` on is `γ r`, after `c` requests. -/
def GradIsA (G : Nat → Grad K n) (γ : Nat → Vec K n → Vec K n) (c : Nat) : Prop :=
  ∀ r x, ∃ ev, ev.length = c ∧ G r (point x) = .ok (point (γ r x), ev)

theorem gradOfAns_fin [IsStrictOrderedRing K] {ans : Nat → Vec (Val K) n → Val K} {φ : Nat → Vec K n → K}
    (hφ : ∀ k x, ans k (point x) = .fin (φ k x)) {h : K} (hh : h ≠ 0) (e : Bool) :
    GradIsA (gradOfAns ans none h e) (fun r => noisyGradient φ r h) (2 * n) := by
  intro r x
  refine ⟨(numericalGradientAns ans r h (point x)).2, ?_, ?_⟩
  · rw [(numericalGradientAns_any ans r h (point x)).2, List.length_flatMap]
    simp [Nat.mul_comm]
  show Except.ok (numericalGradientAns ans r h (point x)) = _
  rw [show numericalGradientAns ans r h (point x) = ((numericalGradientAns ans r h (point x)).1, (numericalGradientAns ans r h (point x)).2) from rfl]
  congr 2
  rw [(numericalGradientAns_any ans r h (point x)).1]
  funext j
  rw [above_exact, below_exact]
  have e1 : Function.update (point x) j (point x j + .fin h) = point (Function.update x j (x j + h)) := by
    funext i
    unfold point
    by_cases hi : i = j
    · subst hi; simp [Val.fin_add]
    · simp [hi]
  have e2 : Function.update (point x) j (point x j - .fin h) = point (Function.update x j (x j - h)) := by
    funext i
    unfold point
    by_cases hi : i = j
    · subst hi; simp [Val.fin_sub]
    · simp [hi]
  rw [e1, e2, hφ, hφ, Val.fin_sub, Val.fin_mul, Val.divBy_fin hh]
  unfold noisyGradient
  show Val.fin _ = Val.fin _
  congr 1
  field_simp

theorem kickAns_fin {G : Nat → Grad K n} {γ : Nat → Vec K n → Vec K n} {c : Nat} (hG : GradIsA G γ c) (r : Nat) (st : Vec K n)
    (q p : Vec K n) (ev : List (Vec (Val K) n)) :
    ∃ ev', ev'.length = ev.length + c ∧ kickAns G r st (point q, point p, ev) =
      .ok (point q, point (fun j => p j - st j * γ (r + ev.length) q j), ev') := by
  obtain ⟨e, hl, he⟩ := hG (r + ev.length) q
  refine ⟨ev ++ e, by rw [List.length_append, hl], ?_⟩
  unfold kickAns kick
  dsimp only
  rw [he]
  simp only [ok_bind']
  congr 3
  funext j
  simp only [point, Val.fin_mul, Val.fin_sub]

theorem drift_point (st : Vec K n) (w : Vec K n × Vec K n) (ev : List (Vec (Val K) n)) :
    drift st (point w.1, point w.2, ev) = (point (fun j => w.1 j + st j * w.2 j), point w.2, ev) := by
  unfold drift
  refine Prod.ext ?_ rfl
  funext j
  simp only [point, Val.fin_mul, Val.fin_add]

theorem leapsAns_fin {G : Nat → Grad K n} {γ : Nat → Vec K n → Vec K n} {c : Nat} (hG : GradIsA G γ c) (r : Nat) (st : Vec K n)
    (z : Vec K n × Vec K n) (L : Nat) : ∀ (l : Nat) (ev : List (Vec (Val K) n)), ev.length = c * (l + 1) →
    ∃ ev', ev'.length = c * (l + L + 1) ∧
      leapsAns G r st L (drift st (point (noisyLeap (fun l => γ (r + c * l)) st z l).1,
        point (noisyLeap (fun l => γ (r + c * l)) st z l).2, ev)) =
      .ok (drift st (point (noisyLeap (fun l => γ (r + c * l)) st z (l + L)).1,
        point (noisyLeap (fun l => γ (r + c * l)) st z (l + L)).2, ev')) := by
  induction L with
  | zero => intro l ev hl; exact ⟨ev, hl, rfl⟩
  | succ L ih =>
    intro l ev hl
    rw [drift_point]
    obtain ⟨e1, hl1, h1⟩ := kickAns_fin hG r st
      (fun j => (noisyLeap (fun l => γ (r + c * l)) st z l).1 j + st j * (noisyLeap (fun l => γ (r + c * l)) st z l).2 j)
      (noisyLeap (fun l => γ (r + c * l)) st z l).2 ev
    rw [hl] at hl1 h1
    obtain ⟨e2, hl2, h2⟩ := ih (l + 1) e1 (by rw [hl1]; ring)
    refine ⟨e2, by rw [hl2]; ring, ?_⟩
    unfold leapsAns
    rw [h1, ok_bind', show l + (L + 1) = l + 1 + L by omega]
    exact h2

theorem leapfrogAns_fin {G : Nat → Grad K n} {γ : Nat → Vec K n → Vec K n} {c : Nat} (hG : GradIsA G γ c) (r : Nat) (st : Vec K n)
    (L : Nat) (z : Vec K n × Vec K n) : ∃ ev, ev.length = c * (L + 2) ∧ leapfrogAns G r st L (point z.1) (point z.2) =
      .ok (point (noisyLeapfrog (fun l => γ (r + c * l)) st L z).1, point (noisyLeapfrog (fun l => γ (r + c * l)) st L z).2, ev) := by
  obtain ⟨e1, hl1, h1⟩ := kickAns_fin hG r (fun j => 1 / 2 * st j) z.1 z.2 []
  obtain ⟨e2, hl2, h2⟩ := leapsAns_fin hG r st z L 0 e1 (by rw [hl1]; simp)
  have hw : (fun j => z.2 j - 1 / 2 * st j * γ (r + ([] : List (Vec (Val K) n)).length) z.1 j) =
      (noisyLeap (fun l => γ (r + c * l)) st z 0).2 := by
    funext j
    simp only [noisyLeap, List.length_nil, Nat.mul_zero]
    ring
  rw [hw] at h1
  obtain ⟨e3, hl3, h3⟩ := kickAns_fin hG r (fun j => 1 / 2 * st j)
    (fun j => (noisyLeap (fun l => γ (r + c * l)) st z L).1 j + st j * (noisyLeap (fun l => γ (r + c * l)) st z L).2 j)
    (noisyLeap (fun l => γ (r + c * l)) st z L).2 e2
  rw [Nat.zero_add] at h2 hl2
  refine ⟨e3, by rw [hl3, hl2]; ring, ?_⟩
  unfold leapfrogAns
  rw [h1, ok_bind']
  erw [h2]
  rw [ok_bind', drift_point, h3]
  congr 3
  rw [hl2]
  unfold noisyLeapfrog
  funext j
  simp only [point]
  congr 1
  ring

/-- What a move does on finite numbers. -/
def MoveF (φ : Nat → Vec K n → K) (h : K) (P : Par σ K n) (r : Nat) (g : σ) (m : Move (Vec (Val K) n × Val K)) : Prop :=
  ∃ q v, m.old = (point q, .fin v) ∧
    let z : Vec K n × Vec K n := (q, (drawVec P.R.randn n g).1)
    let z' := noisyLeapfrog (fun l => noisyGradient φ (r + 2 * n * l) h) P.step P.nleap z
    let e := r + 2 * n * (P.nleap + 2)
    m.prop.1 = point z'.1 ∧ (P.constraints ≠ some "Reject" → m.prop.2 = .fin (φ (e + 1) z'.1)) ∧
    m.accepted = (!decide (P.constraints = some "Reject") &&
      metropolis (.fin (φ e z.1 + kineticEnergy z.2 - (φ (e + 1) z'.1 + kineticEnergy z'.2))) (P.R.rand (drawVec P.R.randn n g).2).1)

/-- The requests before iteration `i`. -/
def reqs (P : Par σ K n) (i : Nat) : Nat := 1 + i * (2 * n * (P.nleap + 2) + if P.constraints = some "Reject" then 0 else 2)

/-- Invariant of the loop on finite numbers. -/
def IMF (ans : Nat → Vec (Val K) n → Val K) (φ : Nat → Vec K n → K) (h : K) (P : Par σ K n) (r1 : Vec (Val K) n × Val K) (g : σ) (i : Nat)
    (s : State σ K n) : Prop :=
  s.rng = gen P g i ∧ s.evals.length = reqs P i ∧ (∃ q v, (s.xcur, s.fcur) = (point q, .fin v)) ∧
  ∃ ms, InvA ans r1 i s ms ∧ ∀ k m, ms[k]? = some m → MoveF φ h P (reqs P k) (gen P g k) m

theorem IMF_step [IsStrictOrderedRing K] {ans : Nat → Vec (Val K) n → Val K} {φ : Nat → Vec K n → K} {h : K}
    (hφ : ∀ k x, ans k (point x) = .fin (φ k x)) {G : Nat → Grad K n} (hG : GradIsA G (fun r => noisyGradient φ r h) (2 * n)) {P : Par σ K n}
    {r1 : Vec (Val K) n × Val K} {g : σ} {i : Nat} {s s' : State σ K n}
    (hI : IMF ans φ h P r1 g i s) (hs : iterAns ans G P s = .ok s') : IMF ans φ h P r1 g (i + 1) s' := by
  obtain ⟨hg, hev, ⟨q, v, hqv⟩, ms, hI, hm⟩ := hI
  have hq : s.xcur = point q := congrArg Prod.fst hqv
  have hmap : ∀ (t : Move (Vec (Val K) n × Val K)), MoveF φ h P (reqs P i) s.rng t →
      ∀ k m, (ms ++ [t])[k]? = some m → MoveF φ h P (reqs P k) (gen P g k) m := by
    intro t ht k m hk
    rcases Nat.lt_or_ge k ms.length with hlt | hge
    · rw [List.getElem?_append_left hlt] at hk
      exact hm k m hk
    · have hk1 := (List.getElem?_eq_some_iff.1 hk).1
      rw [List.length_append, List.length_singleton] at hk1
      have hki : k = i := by have := hI.moves; omega
      rw [List.getElem?_append_right hge, hki, ← hI.moves, Nat.sub_self] at hk
      cases hk
      rw [hki, ← hg]
      exact ht
  obtain ⟨ev, hl, hleap⟩ := leapfrogAns_fin hG s.evals.length P.step P.nleap (q, (drawVec P.R.randn n s.rng).1)
  rw [hev] at hleap
  set z' := noisyLeapfrog (fun l => noisyGradient φ (reqs P i + 2 * n * l) h) P.step P.nleap (q, (drawVec P.R.randn n s.rng).1) with hz'
  unfold iterAns at hs
  obtain ⟨r, hr, hs⟩ := bind_ok_iff.1 hs
  rw [hq, hev] at hr
  have hr' : (Except.ok (point z'.1, point z'.2, ev) : Except PyErr (Phase K n)) = .ok r := hleap.symm.trans hr
  cases hr'
  dsimp only at hs
  rw [truthy_inSearchSpace] at hs
  by_cases hrej : P.constraints = some "Reject"
  · rw [if_neg (by simp [hrej])] at hs
    cases hs
    refine ⟨?_, ?_, ⟨q, v, hqv⟩, _, hI.step ev _ (point z'.1, .nan) false (by simp), hmap _ ⟨q, v, hqv, rfl, fun h => absurd hrej h, ?_⟩⟩
    · rw [push_notify_rng]
      simp only [gen, genAt]
      rw [if_neg (by simp [hrej]), hg]
      rfl
    · rw [push_notify_evals]
      show (s.evals ++ ev).length = _
      rw [List.length_append, hev, hl]
      unfold reqs
      rw [if_pos hrej]
      ring
    · simp [hrej]
  · rw [if_pos (by simp [hrej])] at hs
    have hlen : (s.evals ++ ev).length = reqs P i + 2 * n * (P.nleap + 2) := by rw [List.length_append, hev, hl]
    have hdrop : energyDrop (ans (s.evals ++ ev).length s.xcur) (ans ((s.evals ++ ev).length + 1) (point z'.1))
        (kinetic fun j => .fin ((drawVec P.R.randn n s.rng).1 j)) (kinetic (point z'.2)) =
        .fin (φ (reqs P i + 2 * n * (P.nleap + 2)) q + kineticEnergy (drawVec P.R.randn n s.rng).1 -
          (φ (reqs P i + 2 * n * (P.nleap + 2) + 1) z'.1 + kineticEnergy z'.2)) := by
      rw [hlen, hq, hφ, hφ]
      erw [kinetic_fin, kinetic_fin]
      unfold energyDrop kineticEnergy
      rw [Val.fin_sub, Val.fin_add, Val.fin_sub]
      congr 1
      ring
    rw [hdrop] at hs
    cases hs
    rw [List.append_assoc]
    refine ⟨?_, ?_, ?_, _, hI.step (ev ++ [s.xcur, point z'.1]) _ (point z'.1, _) _ fun _ => ⟨(s.evals ++ ev).length + 1, ?_, rfl⟩,
      hmap _ ⟨q, v, hqv, rfl, fun _ => ?_, ?_⟩⟩
    · rw [push_notify_rng]
      simp only [gen, genAt]
      rw [if_pos (by simp [hrej]), hg]
      rfl
    · rw [push_notify_evals]
      show (s.evals ++ (ev ++ [s.xcur, point z'.1])).length = _
      rw [List.length_append, List.length_append, hev, hl]
      unfold reqs
      rw [if_neg hrej]
      simp only [List.length_cons, List.length_nil]
      ring
    · split_ifs
      · exact ⟨z'.1, _, Prod.ext rfl (hφ _ _)⟩
      · exact ⟨q, v, hqv⟩
    · show (s.evals ++ (ev ++ [s.xcur, point z'.1]))[_]? = some (point z'.1)
      rw [← List.append_assoc, List.getElem?_append_right (by omega), Nat.add_sub_cancel_left]
      rfl
    · show ans _ _ = _
      rw [hlen, hφ]
    · simp only [hrej, decide_false, Bool.not_false, Bool.true_and]
      rfl

end Stochopy.HMC
