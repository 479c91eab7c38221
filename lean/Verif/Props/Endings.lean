import Verif.Props.NoiseSampler

/-!
# C108: how a run of a sampler ends does not depend on the objective

The number of iterations is fixed and no error depends on a value: a call with a noisy or stateful objective returns, or raises the
same exception, exactly as the call with any other objective.
-/

set_option linter.unusedSectionVars false

namespace Stochopy
open Spec Sampling Concrete

namespace Spec

/-- How a call ended: `none` if it returned, otherwise the exception. -/
def raised {α : Type} : Except PyErr α → Option PyErr
  | .ok _ => none
  | .error e => some e

end Spec

/-- Two calls that end in the same way, with related results. -/
def Alike {α β : Type} (p : α → β → Prop) : Except PyErr α → Except PyErr β → Prop
  | .ok a, .ok b => p a b
  | .error e, .error e' => e = e'
  | _, _ => False

theorem Alike.bind {α β γ δ : Type} {p : α → β → Prop} {q : γ → δ → Prop} {r : Except PyErr α} {r' : Except PyErr β}
    {f : α → Except PyErr γ} {f' : β → Except PyErr δ} (h : Alike p r r') (hf : ∀ a b, p a b → Alike q (f a) (f' b)) :
    Alike q (r >>= f) (r' >>= f') := by
  cases r with
  | error e =>
    cases r' with
    | error e' => exact h
    | ok b => exact h.elim
  | ok a =>
    cases r' with
    | error e' => exact h.elim
    | ok b => exact hf a b h

theorem Alike.raised_eq {α β : Type} {p : α → β → Prop} {r : Except PyErr α} {r' : Except PyErr β} (h : Alike p r r') :
    raised r = raised r' := by
  cases r with
  | error e =>
    cases r' with
    | error e' => exact congrArg some h
    | ok b => exact h.elim
  | ok a =>
    cases r' with
    | error e' => exact h.elim
    | ok b => rfl

theorem raised_none {α : Type} {r : Except PyErr α} : raised r = none ↔ ∃ o, r = .ok o := by
  cases r with
  | error e => exact ⟨fun h => (nomatch h), fun h => by obtain ⟨_, h⟩ := h; cases h⟩
  | ok a => exact ⟨fun _ => ⟨a, rfl⟩, fun _ => rfl⟩

section Any
variable {K σ : Type} [AddZeroClass K] [One K] [Sub K] [Mul K] [Div K] [Neg K] [NatCast K] [IntCast K] [Pow K ℕ] [ArrayOps K] [LinearOrder K] [NumFns K]
variable {R : Rng σ K} {fuel : Nat} {g : σ}

/-- As many samples. -/
def SameLen {n : Nat} (s t : State σ K n) : Prop := s.xs.length = t.xs.length ∧ 0 < s.fs.length ∧ 0 < t.fs.length

theorem push_len {n : Nat} (s : State σ K n) (acc : Option (Vec (Val K) n × Val K)) (hc ra : Bool) :
    ((s.push acc).notify hc ra).xs.length = s.xs.length + 1 ∧ 0 < ((s.push acc).notify hc ra).fs.length := by
  cases acc with
  | none => exact ⟨by show (s.xs ++ [_]).length = _; simp, by show 0 < (s.fs ++ [_]).length; simp⟩
  | some q => exact ⟨by show (s.xs ++ [_]).length = _; simp, by show 0 < (s.fs ++ [_]).length; simp⟩

theorem start_alike {a : Sampling.Args K} (fn fn' : Vec (Val K) a.ndim → Val K) (R : Rng σ K) (g : σ) :
    Alike SameLen (start a fn R g) (start a fn' R g) := by
  unfold start
  by_cases h0 : a.maxiter < 0
  · rw [if_pos h0, if_pos h0]; rfl
  · rw [if_neg h0, if_neg h0]
    by_cases h1 : a.maxiter = 0
    · rw [if_pos h1, if_pos h1]; rfl
    · rw [if_neg h1, if_neg h1]
      cases a.first R g with
      | error e => rfl
      | ok x => exact ⟨rfl, Nat.one_pos, Nat.one_pos⟩

theorem block_alike {n : Nat} {P P' : MCMC.Par σ K n} (hp : P.per = P'.per) (j : Nat) {s t : State σ K n} (h : SameLen s t) :
    Alike SameLen (MCMC.block P j s) (MCMC.block P' j t) := by
  unfold MCMC.block
  dsimp only
  rw [hp]
  by_cases hm : min n (min n (j + P'.per - 1) + 1) - j ≠ min n (j + P'.per - 1) - j + 1
  · rw [if_pos hm, if_pos hm]; rfl
  · rw [if_neg hm, if_neg hm]
    have key : ∀ (s' t' : State σ K n) acc acc' hc ra hc' ra', s'.xs = s.xs → t'.xs = t.xs →
        Alike SameLen (.ok ((s'.push acc).notify hc ra)) (.ok ((t'.push acc').notify hc' ra')) := by
      intro s' t' acc acc' hc ra hc' ra' hs ht
      refine ⟨?_, (push_len _ _ _ _).2, (push_len _ _ _ _).2⟩
      rw [(push_len _ _ _ _).1, (push_len _ _ _ _).1, hs, ht, h.1]
    split_ifs <;> exact key _ _ _ _ _ _ _ _ rfl rfl

theorem sweepAns_alike {n : Nat} {ans ans' : Nat → Vec (Val K) n → Val K} {P P' : MCMC.Par σ K n} (hp : P.per = P'.per)
    (hm : P.maxiter = P'.maxiter) (js : List Nat) {s t : State σ K n} (h : SameLen s t) :
    Alike SameLen (MCMC.sweepAns ans P js s) (MCMC.sweepAns ans' P' js t) := by
  induction js generalizing s t with
  | nil => exact h
  | cons j js ih =>
    unfold MCMC.sweepAns
    refine (block_alike (P := P.at ans _) (P' := P'.at ans' _) hp j h).bind fun a b hab => ?_
    rw [hab.1, hm]
    split_ifs
    · exact hab
    · exact ih hab

theorem loopAns_alike {n : Nat} {ans ans' : Nat → Vec (Val K) n → Val K} {P P' : MCMC.Par σ K n} (hp : P.per = P'.per)
    (hm : P.maxiter = P'.maxiter) (f : Nat) {s t : State σ K n} (h : SameLen s t) :
    Alike SameLen (MCMC.loopAns ans P f s) (MCMC.loopAns ans' P' f t) := by
  induction f generalizing s t with
  | zero =>
    unfold MCMC.loopAns
    rw [h.1, hm]
    split_ifs
    · rfl
    · exact h
  | succ f ih =>
    unfold MCMC.loopAns
    rw [h.1, hm]
    split_ifs
    · rw [hp]
      exact (sweepAns_alike hp hm _ h).bind fun a b hab => ih hab
    · exact h

/-- The end of a call of 'mcmc' depends neither on the answers of the objective nor on the objective. -/
theorem C108_mcmc_answers [IntParts K] {a : MCMC.Args K} (ans ans' : Nat → Vec (Val K) a.ndim → Val K) :
    raised (MCMC.sampleAns R fuel a ans g).1 = raised (MCMC.sampleAns R fuel a ans' g).1 := by
  unfold MCMC.sampleAns
  cases a.fn with
  | none => rfl
  | some fn =>
    cases a.checkStart with
    | error e => rfl
    | ok u =>
      cases a.stepsize.scale a.lower a.upper with
      | error e => rfl
      | ok st =>
        show raised (MCMC.restAns R fuel a ans st g) = raised (MCMC.restAns R fuel a ans' st g)
        unfold MCMC.restAns
        split
        · rfl
        split
        · rfl
        · refine Alike.raised_eq (p := fun _ _ => True) ?_
          refine (start_alike (ans 0) (ans' 0) R _).bind fun s t h => ?_
          refine Alike.bind (p := SameLen) (loopAns_alike ?_ ?_ fuel h) fun _ _ _ => trivial
          · rfl
          · rfl

theorem C108_mcmc_returns [IntParts K] {a : MCMC.Args K} (ans : Nat → Vec (Val K) a.ndim → Val K) :
    raised (MCMC.sampleAns R fuel a ans g).1 = raised (MCMC.sample R fuel a g).1 := by
  cases hfn : a.fn with
  | none =>
    unfold MCMC.sampleAns MCMC.sample
    rw [hfn]
  | some fn => rw [← C108_same_mcmc hfn]; exact C108_mcmc_answers _ _

theorem gradOfAns_alike {n : Nat} (ans ans' : Nat → Vec (Val K) n → Val K) (jac : Option (Option (Vec (Val K) n → Vec (Val K) n)))
    (h : K) (e : Bool) (k k' : Nat) (x x' : Vec (Val K) n) :
    Alike (fun _ _ => True) (HMC.gradOfAns ans jac h e k x) (HMC.gradOfAns ans' jac h e k' x') := by
  unfold HMC.gradOfAns
  cases jac with
  | none => trivial
  | some j =>
    dsimp only
    split_ifs <;> rfl

theorem kickAns_alike {n : Nat} {G G' : Nat → HMC.Grad K n}
    (hG : ∀ k k' x x', Alike (fun _ _ => True) (G k x) (G' k' x')) (k k' : Nat) (st st' : Vec K n) (s s' : HMC.Phase K n) :
    Alike (fun _ _ => True) (HMC.kickAns G k st s) (HMC.kickAns G' k' st' s') :=
  (hG _ _ _ _).bind fun _ _ _ => trivial

theorem leapsAns_alike {n : Nat} {G G' : Nat → HMC.Grad K n}
    (hG : ∀ k k' x x', Alike (fun _ _ => True) (G k x) (G' k' x')) (k k' : Nat) (st st' : Vec K n) (l : Nat) (s s' : HMC.Phase K n) :
    Alike (fun _ _ => True) (HMC.leapsAns G k st l s) (HMC.leapsAns G' k' st' l s') := by
  induction l generalizing s s' with
  | zero => trivial
  | succ l ih => exact (kickAns_alike hG k k' st st' s s').bind fun _ _ _ => ih _ _

theorem iterAns_alike {n : Nat} {ans ans' : Nat → Vec (Val K) n → Val K} {G G' : Nat → HMC.Grad K n}
    (hG : ∀ k k' x x', Alike (fun _ _ => True) (G k x) (G' k' x')) {P P' : HMC.Par σ K n} (hl : P.nleap = P'.nleap)
    {s t : State σ K n} (h : SameLen s t) : Alike SameLen (HMC.iterAns ans G P s) (HMC.iterAns ans' G' P' t) := by
  unfold HMC.iterAns
  have hleap : ∀ k k' q p q' p', Alike (fun _ _ => True) (HMC.leapfrogAns G k P.step P.nleap q p)
      (HMC.leapfrogAns G' k' P'.step P'.nleap q' p') := by
    intro k k' q p q' p'
    unfold HMC.leapfrogAns
    rw [hl]
    exact (kickAns_alike hG _ _ _ _ _ _).bind fun _ _ _ => (leapsAns_alike hG _ _ _ _ _ _ _).bind fun _ _ _ => kickAns_alike hG _ _ _ _ _ _
  refine (hleap _ _ _ _ _ _).bind fun a b _ => ?_
  dsimp only
  have key : ∀ (s' t' : State σ K n) acc acc' hc ra hc' ra', s'.xs = s.xs → t'.xs = t.xs →
      Alike SameLen (.ok ((s'.push acc).notify hc ra)) (.ok ((t'.push acc').notify hc' ra')) := by
    intro s' t' acc acc' hc ra hc' ra' hs ht
    refine ⟨?_, (push_len _ _ _ _).2, (push_len _ _ _ _).2⟩
    rw [(push_len _ _ _ _).1, (push_len _ _ _ _).1, hs, ht, h.1]
  split_ifs <;> exact key _ _ _ _ _ _ _ _ rfl rfl

theorem hmc_loopAns_alike {n : Nat} {ans ans' : Nat → Vec (Val K) n → Val K} {G G' : Nat → HMC.Grad K n}
    (hG : ∀ k k' x x', Alike (fun _ _ => True) (G k x) (G' k' x')) {P P' : HMC.Par σ K n} (hl : P.nleap = P'.nleap) (m : Nat)
    {s t : State σ K n} (h : SameLen s t) : Alike SameLen (HMC.loopAns ans G P m s) (HMC.loopAns ans' G' P' m t) := by
  induction m generalizing s t with
  | zero => exact h
  | succ m ih => exact (iterAns_alike hG hl h).bind fun _ _ hab => ih hab

/-- The end of a call of 'hmc' depends neither on the answers of the objective nor on the objective. -/
theorem C108_hmc_answers {a : HMC.Args K} (ans ans' : Nat → Vec (Val K) a.ndim → Val K) :
    raised (HMC.sampleAns R a ans g).1 = raised (HMC.sampleAns R a ans' g).1 := by
  unfold HMC.sampleAns
  cases a.fn with
  | none => rfl
  | some fn =>
    cases a.checkStart with
    | error e => rfl
    | ok u =>
      cases decide (a.nleap < 1) with
      | true => rfl
      | false =>
        cases a.stepsize.scale a.lower a.upper with
        | error e => rfl
        | ok st =>
          show raised (HMC.restAns R a ans st g) = raised (HMC.restAns R a ans' st g)
          unfold HMC.restAns
          split
          · rfl
          split
          · rfl
          · refine Alike.raised_eq (p := fun _ _ => True) ?_
            refine (start_alike (ans 0) (ans' 0) R _).bind fun s t h => ?_
            refine Alike.bind (p := SameLen) (hmc_loopAns_alike (fun k k' x x' => gradOfAns_alike ans ans' _ _ _ k k' x x') ?_ _ h)
              fun s t h => ?_
            · rfl
            · unfold HMC.finish
              obtain ⟨i, hi⟩ := argmin_total h.2.1 (fun i : Fin s.fs.length => s.fs.get i)
              obtain ⟨j, hj⟩ := argmin_total h.2.2 (fun i : Fin t.fs.length => t.fs.get i)
              rw [hi, hj]
              trivial

theorem C108_hmc_returns {a : HMC.Args K} (ans : Nat → Vec (Val K) a.ndim → Val K) :
    raised (HMC.sampleAns R a ans g).1 = raised (HMC.sample R a g).1 := by
  cases hfn : a.fn with
  | none =>
    unfold HMC.sampleAns HMC.sample
    rw [hfn]
  | some fn => rw [← C108_same_hmc hfn]; exact C108_hmc_answers _ _

end Any

section Total
variable {K σ : Type} [Field K] [LinearOrder K] [NumFns K] [IsStrictOrderedRing K] [FloorRing K] [LawfulNumFns K]

/-- With valid arguments and blocks of equal size (or a short chain) 'mcmc' returns whatever the objective answers. -/
theorem C108_mcmc_total {R : Rng σ K} {fuel : Nat} {g : σ} {a : MCMC.Args K} (hv : ValidMCMC a) (hn : 0 < a.ndim)
    (hf : a.maxiter.toNat ≤ fuel)
    (hfit : blockSize a.perc a.ndim ∣ a.ndim ∨ a.maxiter ≤ (a.ndim / blockSize a.perc a.ndim : Nat) + 1)
    (ans : Nat → Vec (Val K) a.ndim → Val K) : ∃ o, (MCMC.sampleAns R fuel a ans g).1 = .ok o := by
  have h := raised_none.2 (MCMC.sample_total (R := R) (g := g) hv hn hf hfit)
  exact raised_none.1 ((C108_mcmc_returns ans).trans h)

/-- Without a gradient function 'hmc' with valid arguments returns whatever the objective answers. -/
theorem C108_hmc_total {R : Rng σ K} {g : σ} {a : HMC.Args K} (hv : ValidHMC a) (hj : a.jac = none ∨ a.maxiter = 1)
    (ans : Nat → Vec (Val K) a.ndim → Val K) : ∃ o, (HMC.sampleAns R a ans g).1 = .ok o := by
  have h := raised_none.2 (HMC.sample_total (R := R) (g := g) hv hj)
  exact raised_none.1 ((C108_hmc_returns ans).trans h)

end Total

/-- A call that returns for one objective returns for the outlier, and one that raises raises. -/
example : raised (HMC.sampleAns rng hmcTwo outlier 0).1 = none :=
  (C108_hmc_returns (a := hmcTwo) outlier).trans (by decide +kernel)

example : raised (MCMC.sampleAns rng 10 { mcmcArgs with perc := 2 } (fun _ _ => .fin 0) 0).1 = some .valueError :=
  (C108_mcmc_returns (a := { mcmcArgs with perc := 2 }) _).trans (by decide +kernel)

end Stochopy
