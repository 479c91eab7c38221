import Verif.Model.HMC
import Verif.Lemmas.Sampling

/-! # The Hamiltonian loop as a sequence of moves; numerical gradients; the integrator on finite numbers -/

set_option linter.unusedSectionVars false

namespace Stochopy
namespace Val
variable {K : Type} [Field K] [LinearOrder K]

theorem fin_add (a b : K) : (fin a + fin b : Val K) = fin (a + b) := rfl
theorem fin_sub (a b : K) : (fin a - fin b : Val K) = fin (a - b) := by
  show (fin a + fin (-b) : Val K) = _
  rw [fin_add, sub_eq_add_neg]
theorem fin_mul (a b : K) : (fin a * fin b : Val K) = fin (a * b) := rfl
theorem sub_add_fin (a : Val K) (h : K) : a - fin h + fin h = a := by
  cases a with
  | fin k => rw [fin_sub, fin_add, sub_add_cancel]
  | nan => rfl
  | ninf => rfl
  | pinf => rfl
theorem add_sub_fin (a : Val K) (h : K) : a + fin h - fin h = a := by
  cases a with
  | fin k => rw [fin_add, fin_sub, add_sub_cancel_right]
  | nan => rfl
  | ninf => rfl
  | pinf => rfl
theorem divBy_fin {a b : K} (hb : b ≠ 0) : divBy (fin a) b = fin (a / b) := by
  simp [divBy, hb]

end Val

namespace HMC
open Sampling Spec

section Any
variable {K σ : Type} [Zero K] [One K] [Add K] [Sub K] [Mul K] [Div K] [Neg K] [NatCast K] [IntCast K] [Pow K ℕ] [ArrayOps K] [LinearOrder K] [NumFns K] {n : Nat}

/-- The point above `x` in direction `j` at which the objective is evaluated: the preceding coordinates were moved up and down again. -/
def above (h : K) (x : Vec (Val K) n) (j : Fin n) : Vec (Val K) n :=
  fun i => if i < j then x i + .fin h - .fin h else if i = j then x i + .fin h else x i

/-- The point below `x` in direction `j`. -/
def below (h : K) (x : Vec (Val K) n) (j : Fin n) : Vec (Val K) n :=
  fun i => if i < j then x i - .fin h + .fin h else if i = j then x i - .fin h else x i

theorem gradStep_take (fn : Vec (Val K) n → Val K) (h : K) (x : Vec (Val K) n) (k : Nat) (hk : k ≤ n) :
    ((List.finRange n).take k).foldl (gradStep fn h) (x, x, [], []) =
      ((fun i => if i.val < k then x i - .fin h + .fin h else x i), (fun i => if i.val < k then x i + .fin h - .fin h else x i),
       ((List.finRange n).take k).map (fun j => fn (above h x j) - fn (below h x j)),
       ((List.finRange n).take k).flatMap fun j => [above h x j, below h x j]) := by
  induction k with
  | zero => simp
  | succ k ih =>
    have hk' : k < n := hk
    have ht : (List.finRange n).take (k + 1) = (List.finRange n).take k ++ [⟨k, hk'⟩] := by
      rw [List.take_add_one, List.getElem?_eq_getElem (by simpa using hk')]
      simp
    rw [ht, List.foldl_append, ih (by omega), List.map_append, List.flatMap_append]
    have e1 : Function.update (fun i : Fin n => if i.val < k then x i - .fin h + .fin h else x i) ⟨k, hk'⟩ (x ⟨k, hk'⟩ - .fin h) =
        below h x ⟨k, hk'⟩ := by
      funext i
      unfold below
      by_cases hi : i = ⟨k, hk'⟩
      · subst hi; simp
      · rw [Function.update_of_ne hi, if_neg hi]; rfl
    have e2 : Function.update (fun i : Fin n => if i.val < k then x i + .fin h - .fin h else x i) ⟨k, hk'⟩ (x ⟨k, hk'⟩ + .fin h) =
        above h x ⟨k, hk'⟩ := by
      funext i
      unfold above
      by_cases hi : i = ⟨k, hk'⟩
      · subst hi; simp
      · rw [Function.update_of_ne hi, if_neg hi]; rfl
    simp only [List.foldl_cons, List.foldl_nil]
    unfold gradStep
    simp only [lt_self_iff_false, if_false, e1, e2]
    refine Prod.ext ?_ (Prod.ext ?_ (Prod.ext ?_ ?_))
    · funext i
      by_cases hi : i = ⟨k, hk'⟩
      · subst hi; simp [below]
      · have hne : i.val ≠ k := fun hh => hi (Fin.ext hh)
        have hlt : i.val < k + 1 ↔ i.val < k := by omega
        dsimp only
        rw [Function.update_of_ne hi]
        unfold below
        rw [if_neg hi]
        simp only [hlt]
        rfl
    · funext i
      by_cases hi : i = ⟨k, hk'⟩
      · subst hi; simp [above]
      · have hne : i.val ≠ k := fun hh => hi (Fin.ext hh)
        have hlt : i.val < k + 1 ↔ i.val < k := by omega
        dsimp only
        rw [Function.update_of_ne hi]
        unfold above
        rw [if_neg hi]
        simp only [hlt]
        rfl
    · rfl
    · simp

/-- `numerical_gradient` in any arithmetic. -/
theorem numericalGradient_any (fn : Vec (Val K) n → Val K) (h : K) (x : Vec (Val K) n) :
    (numericalGradient fn h x).1 = (fun j => Val.divBy (.fin (1 / 2) * (fn (above h x j) - fn (below h x j))) h) ∧
    (numericalGradient fn h x).2 = (List.finRange n).flatMap fun j => [above h x j, below h x j] := by
  have := gradStep_take fn h x n le_rfl
  rw [List.take_of_length_le (by simp)] at this
  unfold numericalGradient
  rw [this]
  refine ⟨?_, rfl⟩
  funext j
  simp

theorem numericalGradient_calls (fn : Vec (Val K) n → Val K) (h : K) (x : Vec (Val K) n) :
    (numericalGradient fn h x).2.length = 2 * n := by
  rw [(numericalGradient_any fn h x).2, List.length_flatMap]
  simp [Nat.mul_comm]

/-! ## Number of objective calls of the integrator -/

/-- The gradient makes `c` objective calls whenever it returns. -/
def Calls (G : Grad K n) (c : Nat) : Prop := ∀ x r, G x = .ok r → r.2.length = c

theorem kick_calls {G : Grad K n} {c : Nat} (hG : Calls G c) {step : Vec K n} {s s' : Phase K n}
    (h : kick G step s = .ok s') : s'.2.2.length = s.2.2.length + c := by
  unfold kick at h
  obtain ⟨r, hr, h⟩ := bind_ok_iff.1 h
  cases h
  rw [List.length_append, hG _ _ hr]

theorem leaps_calls {G : Grad K n} {c : Nat} (hG : Calls G c) {step : Vec K n} (k : Nat) : ∀ {s s' : Phase K n},
    leaps G step k s = .ok s' → s'.2.2.length = s.2.2.length + k * c := by
  induction k with
  | zero => intro s s' h; cases h; simp
  | succ k ih =>
    intro s s' h
    unfold leaps at h
    obtain ⟨s1, h1, h2⟩ := bind_ok_iff.1 h
    rw [ih h2, Nat.succ_mul]
    have : (drift step s1).2.2.length = s1.2.2.length := rfl
    rw [this, kick_calls hG h1]
    omega

theorem leapfrog_calls {G : Grad K n} {c : Nat} (hG : Calls G c) {step : Vec K n} {L : Nat} {q p : Vec (Val K) n}
    {r : Phase K n} (h : leapfrog G step L q p = .ok r) : r.2.2.length = (L + 2) * c := by
  unfold leapfrog at h
  obtain ⟨s1, h1, h⟩ := bind_ok_iff.1 h
  obtain ⟨s2, h2, h3⟩ := bind_ok_iff.1 h
  have e1 := kick_calls hG h1
  have e2 := leaps_calls hG _ h2
  have e3 := kick_calls hG h3
  have e4 : (drift step s1).2.2.length = s1.2.2.length := rfl
  rw [e3, e2, e4, e1]
  simp only [List.length_nil]
  ring

/-- A vector of finite floats. -/
def emb (x : Vec K n) : Vec (Val K) n := fun j => .fin (x j)

/-! ## The loop -/

variable {P : Par σ K n}

/-- The generator before iteration `k`. -/
def gen (P : Par σ K n) (g : σ) (k : Nat) : σ := genAt P.R n (!decide (P.constraints = some "Reject")) g k

/-- What is true of a move made with the generator in state `g`. -/
def MoveOk (P : Par σ K n) (g : σ) (m : Move (Vec (Val K) n)) : Prop :=
  ∃ r : Phase K n, leapfrog P.G P.step P.nleap m.old (emb (drawVec P.R.randn n g).1) = .ok r ∧ m.prop = r.1 ∧
    m.accepted = (truthy (inSearchSpace m.prop P.lower P.upper P.constraints) &&
      metropolis (energyDrop (P.fn m.old) (P.fn m.prop) (kinetic (emb (drawVec P.R.randn n g).1)) (kinetic r.2.1))
        (P.R.rand (drawVec P.R.randn n g).2).1)

/-- Invariant of the loop; `c` is the number of objective calls of a gradient. -/
def IM (P : Par σ K n) (c : Nat) (x1 : Vec (Val K) n) (g : σ) (i : Nat) (s : State σ K n) : Prop :=
  (∃ ms, Inv P.fn P.hasCallback P.returnAll x1 i s ms ∧ ∀ k m, ms[k]? = some m → MoveOk P (gen P g k) m) ∧
  s.rng = gen P g i ∧
  s.evals.length = 1 + i * ((P.nleap + 2) * c + if P.constraints = some "Reject" then 0 else 2)

theorem IM_step {c : Nat} (hG : Calls P.G c) {x1 : Vec (Val K) n} {g : σ} {i : Nat} {s s' : State σ K n}
    (h : IM P c x1 g i s) (hs : iter P s = .ok s') : IM P c x1 g (i + 1) s' := by
  obtain ⟨⟨ms, hI, hm⟩, hg, hev⟩ := h
  unfold iter at hs
  obtain ⟨r, hr, hs⟩ := bind_ok_iff.1 hs
  dsimp only at hs
  rw [truthy_inSearchSpace] at hs
  have hcalls := leapfrog_calls hG hr
  have hms : ∀ b : Bool, b = (truthy (inSearchSpace r.1 P.lower P.upper P.constraints) &&
        metropolis (energyDrop (P.fn s.xcur) (P.fn r.1) (kinetic (emb (drawVec P.R.randn n s.rng).1)) (kinetic r.2.1))
          (P.R.rand (drawVec P.R.randn n s.rng).2).1) →
      ∀ k m, (ms ++ [{ old := s.xcur, prop := r.1, accepted := b }])[k]? = some m → MoveOk P (gen P g k) m := by
    intro b hb k m hk
    rw [getElem?_snoc] at hk
    rcases hk with hk | ⟨hk, rfl⟩
    · exact hm k m hk
    · rw [hI.moves] at hk
      subst hk
      rw [← hg]
      exact ⟨r, hr, rfl, hb⟩
  rw [truthy_inSearchSpace] at hms
  by_cases hrej : P.constraints = some "Reject"
  · rw [if_neg (by simp [hrej])] at hs
    cases hs
    refine ⟨⟨_, hI.step r.2.2 _ r.1 false, hms _ (by simp [hrej])⟩, ?_, ?_⟩
    · rw [push_notify_rng]
      simp only [gen, genAt]
      rw [if_neg (by simp [hrej]), hg]
      rfl
    · rw [push_notify_evals]
      rw [if_pos hrej] at hev ⊢
      rw [List.length_append, hev, hcalls]
      ring
  · rw [if_pos (by simp [hrej])] at hs
    cases hs
    rw [List.append_assoc]
    refine ⟨⟨_, hI.step (r.2.2 ++ [s.xcur, r.1]) _ r.1 _, hms _ (by simp [hrej]; rfl)⟩, ?_, ?_⟩
    · rw [push_notify_rng]
      simp only [gen, genAt]
      rw [if_pos (by simp [hrej]), hg]
      rfl
    · rw [push_notify_evals]
      rw [if_neg hrej] at hev ⊢
      rw [List.length_append, List.length_append, hev, hcalls]
      simp only [List.length_cons, List.length_nil]
      ring

theorem loop_eq (k : Nat) : ∀ (i : Nat) (s : State σ K n), loop P k s = steps (fun _ => iter P) i k s := by
  induction k with
  | zero => intro i s; rfl
  | succ k ih =>
    intro i s
    unfold loop
    simp only [steps]
    congr 1
    funext s'
    exact ih (i + 1) s'

/-- The parameters of the loop of a call. -/
def par (R : Rng σ K) (a : Args K) (fn : Vec (Val K) a.ndim → Val K) (st : Vec K a.ndim) : Par σ K a.ndim :=
  { R := R, fn := fn, G := gradOf fn a.jac a.fdStep a.extraArgs, lower := a.lower, upper := a.upper,
    step := st, nleap := a.nleap.toNat, constraints := a.constraints, hasCallback := a.callback.isSome,
    returnAll := a.returnAll }

theorem gradOf_calls (fn : Vec (Val K) n → Val K) (jac : Option (Option (Vec (Val K) n → Vec (Val K) n))) (h : K)
    (e : Bool) : Calls (gradOf fn jac h e) (2 * n) := by
  intro x r hr
  unfold gradOf at hr
  cases jac with
  | none => cases hr; exact numericalGradient_calls fn h x
  | some j => cases e <;> cases hr

/-- What a completed call did. -/
theorem sample_ok {R : Rng σ K} {a : Args K} {g : σ} {o : Output σ K a.ndim} (h : (sample R a g).1 = .ok o) :
    ∃ fn st s x g', a.fn = some fn ∧ a.checkStart = .ok () ∧ 1 ≤ a.nleap ∧
      a.stepsize.scale a.lower a.upper = .ok st ∧ a.jac ≠ some none ∧ a.badCallback = false ∧ 0 < a.maxiter ∧
      a.first R (a.seeded R g) = .ok (x, g') ∧ IM (par R a fn st) (2 * a.ndim) x g' (a.maxiter.toNat - 1) s ∧
      finish a.maxiter a.returnAll s = .ok o := by
  unfold sample at h
  cases hfn : a.fn with
  | none => rw [hfn] at h; cases h
  | some fn =>
    cases hch : a.checkStart with
    | error e => rw [hfn, hch] at h; cases h
    | ok u =>
      by_cases hnl : a.nleap < 1
      · rw [hfn, hch, decide_eq_true hnl] at h; cases h
      · cases hsc : a.stepsize.scale a.lower a.upper with
        | error e => rw [hfn, hch, hsc, decide_eq_false hnl] at h; cases h
        | ok st =>
          rw [hfn, hch, hsc, decide_eq_false hnl] at h
          dsimp only at h
          unfold rest at h
          by_cases hj : a.jac = some none
          · rw [hj] at h; cases h
          · have hj' : badJac a.jac = false := by
              cases hjac : a.jac with
              | none => rfl
              | some j => cases j with
                | none => exact absurd hjac hj
                | some f => rfl
            rw [hj', if_neg (by simp)] at h
            cases hbc : a.badCallback with
            | true => rw [hbc] at h; cases h
            | false =>
              rw [hbc, if_neg (by simp)] at h
              obtain ⟨s0, h0, h⟩ := bind_ok_iff.1 h
              obtain ⟨s1, h1, h⟩ := bind_ok_iff.1 h
              obtain ⟨hm, x, g', hx, hg0, hev, _, hI⟩ := start_inv h0
              refine ⟨fn, st, s1, x, g', rfl, rfl, by omega, rfl, hj, rfl, hm, hx, ?_, h⟩
              have h1' : loop (par R a fn st) (a.maxiter.toNat - 1) s0 = .ok s1 := h1
              rw [loop_eq _ 0] at h1'
              have := steps_inv (I := IM (par R a fn st) (2 * a.ndim) x g')
                (fun i s s' => IM_step (P := par R a fn st) (gradOf_calls fn a.jac a.fdStep a.extraArgs))
                (a.maxiter.toNat - 1) 0 (s := s0) ⟨⟨[], hI, by intro k m hk; simp at hk⟩, hg0, by rw [hev]; simp⟩ h1'
              rwa [Nat.zero_add] at this

end Any

variable {K σ : Type} [Field K] [LinearOrder K] [NumFns K] {n : Nat}

/-- The difference of the objective values on both sides of `x` in direction `j`. -/
def centralDiff (fn : Vec (Val K) n → Val K) (h : K) (x : Vec (Val K) n) (j : Fin n) : Val K :=
  fn (Function.update x j (x j + .fin h)) - fn (Function.update x j (x j - .fin h))

/-- When moving a coordinate up and down again restores it, only coordinate `j` differs. -/
theorem above_exact (h : K) (x : Vec (Val K) n) (j : Fin n) : above h x j = Function.update x j (x j + .fin h) := by
  funext i
  unfold above
  by_cases hi : i = j
  · subst hi; simp
  · rw [Function.update_of_ne hi, if_neg hi, Val.add_sub_fin, ite_self]

theorem below_exact (h : K) (x : Vec (Val K) n) (j : Fin n) : below h x j = Function.update x j (x j - .fin h) := by
  funext i
  unfold below
  by_cases hi : i = j
  · subst hi; simp
  · rw [Function.update_of_ne hi, if_neg hi, Val.sub_add_fin, ite_self]

/-- `numerical_gradient` is half the central difference divided by the step, after `2 n` objective calls. -/
theorem numericalGradient_eq (fn : Vec (Val K) n → Val K) (h : K) (x : Vec (Val K) n) :
    (numericalGradient fn h x).1 = (fun j => Val.divBy (.fin (1 / 2) * centralDiff fn h x j) h) ∧
    (numericalGradient fn h x).2 = (List.finRange n).flatMap fun j =>
      [Function.update x j (x j + .fin h), Function.update x j (x j - .fin h)] := by
  have := numericalGradient_any fn h x
  simp only [above_exact, below_exact] at this
  exact this

/-! ## The integrator on finite numbers -/

/-- Momentum half step or full step. -/
def kickK (γ : Vec K n → Vec K n) (c : K) (step : Vec K n) (z : Vec K n × Vec K n) : Vec K n × Vec K n :=
  (z.1, fun j => z.2 j - c * step j * γ z.1 j)

/-- Position step. -/
def driftK (step : Vec K n) (z : Vec K n × Vec K n) : Vec K n × Vec K n := (fun j => z.1 j + step j * z.2 j, z.2)

/-- The leap-frog map. -/
def leapK (γ : Vec K n → Vec K n) (step : Vec K n) (L : Nat) (z : Vec K n × Vec K n) : Vec K n × Vec K n :=
  kickK γ (1 / 2) step ((fun z => driftK step (kickK γ 1 step z))^[L] (driftK step (kickK γ (1 / 2) step z)))

/-- On finite points the gradient is `γ`. -/
def GradIs (G : Grad K n) (γ : Vec K n → Vec K n) : Prop := ∀ x, ∃ ev, G (emb x) = .ok (emb (γ x), ev)

theorem kick_fin {G : Grad K n} {γ : Vec K n → Vec K n} (hG : GradIs G γ) (c : K) (step : Vec K n) (q p : Vec K n)
    (ev : List (Vec (Val K) n)) :
    ∃ ev', kick G (fun j => c * step j) (emb q, emb p, ev) =
      .ok (emb (kickK γ c step (q, p)).1, emb (kickK γ c step (q, p)).2, ev') := by
  obtain ⟨e, he⟩ := hG q
  refine ⟨ev ++ e, ?_⟩
  unfold kick
  dsimp only
  rw [he]
  simp only [ok_bind']
  congr 3
  funext j
  simp only [emb, kickK, Val.fin_mul, Val.fin_sub]

theorem drift_fin (step : Vec K n) (q p : Vec K n) (ev : List (Vec (Val K) n)) :
    drift step (emb q, emb p, ev) = (emb (driftK step (q, p)).1, emb (driftK step (q, p)).2, ev) := by
  unfold drift driftK
  refine Prod.ext ?_ rfl
  funext j
  simp only [emb, Val.fin_mul, Val.fin_add]

theorem leaps_fin {G : Grad K n} {γ : Vec K n → Vec K n} (hG : GradIs G γ) (step : Vec K n) (k : Nat) :
    ∀ (z : Vec K n × Vec K n) (ev : List (Vec (Val K) n)), ∃ ev', leaps G step k (emb z.1, emb z.2, ev) =
      .ok (emb ((fun z => driftK step (kickK γ 1 step z))^[k] z).1,
           emb ((fun z => driftK step (kickK γ 1 step z))^[k] z).2, ev') := by
  induction k with
  | zero => intro z ev; exact ⟨ev, rfl⟩
  | succ k ih =>
    intro z ev
    obtain ⟨e1, h1⟩ := kick_fin hG 1 step z.1 z.2 ev
    simp only [one_mul] at h1
    obtain ⟨e2, h2⟩ := ih (driftK step (kickK γ 1 step z)) e1
    refine ⟨e2, ?_⟩
    unfold leaps
    rw [h1, ok_bind', drift_fin]
    rw [Function.iterate_succ_apply]
    exact h2

theorem leapfrog_fin {G : Grad K n} {γ : Vec K n → Vec K n} (hG : GradIs G γ) (step : Vec K n) (L : Nat)
    (q p : Vec K n) : ∃ ev, leapfrog G step L (emb q) (emb p) =
      .ok (emb (leapK γ step L (q, p)).1, emb (leapK γ step L (q, p)).2, ev) := by
  obtain ⟨e1, h1⟩ := kick_fin hG (1 / 2) step q p []
  obtain ⟨e2, h2⟩ := leaps_fin hG step L (driftK step (kickK γ (1 / 2) step (q, p))) e1
  obtain ⟨e3, h3⟩ := kick_fin hG (1 / 2) step
    ((fun z => driftK step (kickK γ 1 step z))^[L] (driftK step (kickK γ (1 / 2) step (q, p)))).1
    ((fun z => driftK step (kickK γ 1 step z))^[L] (driftK step (kickK γ (1 / 2) step (q, p)))).2 e2
  refine ⟨e3, ?_⟩
  unfold leapfrog
  rw [h1, ok_bind', drift_fin, h2, ok_bind', h3]
  rfl

/-- Momentum flip. -/
def flip (z : Vec K n × Vec K n) : Vec K n × Vec K n := (z.1, fun j => - z.2 j)

theorem flip_flip (z : Vec K n × Vec K n) : flip (flip z) = z := by
  unfold flip; simp

theorem kick_flip (γ : Vec K n → Vec K n) (c : K) (step : Vec K n) (z : Vec K n × Vec K n) :
    flip (kickK γ c step (flip (kickK γ c step z))) = z := by
  unfold flip kickK
  refine Prod.ext rfl ?_
  funext j
  simp

theorem drift_flip (step : Vec K n) (z : Vec K n × Vec K n) : flip (driftK step (flip (driftK step z))) = z := by
  unfold flip driftK
  refine Prod.ext ?_ ?_
  · funext j; simp
  · funext j; simp

/-- A map that undoes itself after a momentum flip. -/
def Rev (f : Vec K n × Vec K n → Vec K n × Vec K n) (f' : Vec K n × Vec K n → Vec K n × Vec K n) : Prop :=
  ∀ z, f' (flip (f z)) = flip z

theorem Rev.comp {f f' g g' : Vec K n × Vec K n → Vec K n × Vec K n} (hf : Rev f f') (hg : Rev g g') :
    Rev (fun z => g (f z)) (fun z => f' (g' z)) := by
  intro z
  show f' (g' (flip (g (f z)))) = _
  rw [hg, hf]

theorem rev_kick (γ : Vec K n → Vec K n) (c : K) (step : Vec K n) : Rev (kickK γ c step) (kickK γ c step) := by
  intro z
  have := congrArg flip (kick_flip γ c step z)
  rwa [flip_flip] at this

theorem rev_drift (step : Vec K n) : Rev (driftK step) (driftK step) := by
  intro z
  have := congrArg flip (drift_flip step z)
  rwa [flip_flip] at this

theorem rev_iterate {f f' : Vec K n × Vec K n → Vec K n × Vec K n} (hf : Rev f f') (k : Nat) : Rev (f^[k]) (f'^[k]) := by
  induction k with
  | zero => intro z; rfl
  | succ k ih =>
    intro z
    rw [Function.iterate_succ_apply', Function.iterate_succ_apply, ih, hf]

theorem iterate_shift {α : Type} (d k : α → α) (L : Nat) (z : α) :
    d ((fun z => k (d z))^[L] z) = (fun z => d (k z))^[L] (d z) := by
  induction L generalizing z with
  | zero => rfl
  | succ L ih =>
    rw [Function.iterate_succ_apply, Function.iterate_succ_apply, ih]

/-- The leap-frog map is its own inverse up to momentum flips. -/
theorem leapK_rev (γ : Vec K n → Vec K n) (step : Vec K n) (L : Nat) : Rev (leapK γ step L) (leapK γ step L) := by
  have h1 : Rev (fun z => driftK step (kickK γ 1 step z)) (fun z => kickK γ 1 step (driftK step z)) :=
    (rev_kick γ 1 step).comp (rev_drift step)
  have h2 := ((rev_kick γ (1 / 2) step).comp (rev_drift step)).comp
    ((rev_iterate h1 L).comp (rev_kick γ (1 / 2) step))
  intro z
  have h3 := h2 z
  unfold leapK
  dsimp only at h3
  rw [iterate_shift (driftK step) (kickK γ 1 step)] at h3
  exact h3

end HMC
end Stochopy
