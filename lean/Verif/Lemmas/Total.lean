import Verif.Lemmas.Fuel
import Verif.Lemmas.Evolution

/-! When the frame and the optimizers raise, and what. -/

set_option linter.unusedSectionVars false

namespace Stochopy
variable {K σ S : Type} [AddZeroClass K] [One K] [Sub K] [Mul K] [Div K] [Neg K] [NatCast K] [IntCast K] [Pow K ℕ] [ArrayOps K] [LinearOrder K] {p n : Nat} {A : Alg S K p n} {c : Cfg}

theorem argminStep_some {v : Fin p → Val K} {b : Option (Fin p)} {i : Fin p} : ∃ j, argminStep v b i = some j := by
  unfold argminStep
  cases b with
  | none => exact ⟨i, rfl⟩
  | some b => dsimp only; split_ifs <;> exact ⟨_, rfl⟩

theorem argmin_total (hp : 0 < p) (v : Fin p → Val K) : ∃ i, argmin v = .ok i := by
  unfold argmin argmin?
  obtain ⟨p, rfl⟩ : ∃ q, p = q + 1 := ⟨p - 1, by omega⟩
  rw [List.finRange_succ, List.foldl_cons]
  obtain ⟨j, hj⟩ := foldl_inv (f := argminStep v) (fun b => ∃ j, b = some j) (fun b i _ => argminStep_some)
    (List.map Fin.succ (List.finRange p)) (b := argminStep v none 0) argminStep_some
  rw [hj]
  exact ⟨j, rfl⟩

theorem argmin_ne_error (hp : 0 < p) (v : Fin p → Val K) {e : PyErr} : argmin v ≠ .error e := by
  obtain ⟨i, hi⟩ := argmin_total hp v
  rw [hi]; simp

theorem selectionSync_ne_error (hp : 0 < p) {it : Nat} {cand : Pop K p n} {xbest : Vec K n} {x : Pop K p n}
    {xfun : Fin p → Val K} {maxiter : Int} {xtol : K} {ftol : Val K} {obj : Obj K n} {e : PyErr} :
    selectionSync it cand xbest x xfun maxiter xtol ftol obj ≠ .error e := by
  intro h
  unfold selectionSync at h
  rw [bind_error_iff] at h
  rcases h with h | ⟨_, _, h⟩
  · exact argmin_ne_error hp _ h
  · simp at h

/-- What can go wrong with the recording of the history. -/
def RecErr (c : Cfg) (p : Nat) (e : PyErr) : Prop :=
  c.returnAll = true ∧ ((e = .valueError ∧ (c.maxiter < 0 ∨ (p : Int) < c.nout)) ∨ (e = .indexError ∧ c.maxiter < 2))

theorem record0_error {s : S} {e : PyErr} (h : A.record0 c s = .error e) : RecErr c p e := by
  unfold Alg.record0 at h
  by_cases h1 : c.returnAll = true
  · refine ⟨h1, ?_⟩
    rw [if_pos h1] at h
    by_cases h2 : c.maxiter < 0
    · rw [if_pos h2] at h; cases h; exact Or.inl ⟨rfl, Or.inl h2⟩
    rw [if_neg h2] at h
    by_cases h3 : c.maxiter = 0
    · rw [if_pos h3] at h; cases h; exact Or.inr ⟨rfl, by omega⟩
    rw [if_neg h3] at h
    by_cases h4 : 0 < c.nout
    · rw [if_pos h4] at h
      by_cases h5 : (p : Int) < c.nout
      · rw [if_pos h5] at h; cases h; exact Or.inl ⟨rfl, Or.inr h5⟩
      · rw [if_neg h5] at h; cases h
    · rw [if_neg h4] at h; cases h
  · rw [if_neg h1] at h; cases h

theorem record0_ok_iff {s : S} :
    (∃ r, A.record0 c s = .ok r) ↔ (c.returnAll = true → 1 ≤ c.maxiter ∧ c.nout ≤ p) := by
  unfold Alg.record0
  split_ifs with h1 h2 h3 h4 h5 <;> simp [h1] <;> omega

theorem record_error (hp : 0 < p) {it : Nat} {s : S} {e : PyErr} (h : A.record c it s = .error e) :
    c.returnAll = true ∧ e = .indexError ∧ c.maxiter ≤ (it : Int) - 1 := by
  unfold Alg.record at h
  by_cases h1 : c.returnAll = true
  · refine ⟨h1, ?_⟩
    rw [if_pos h1] at h
    by_cases h2 : 0 < c.nout
    · rw [if_pos h2] at h
      by_cases h3 : c.maxiter ≤ (it : Int) - 1
      · rw [if_pos h3] at h; cases h; exact ⟨rfl, h3⟩
      · rw [if_neg h3] at h; cases h
    · rw [if_neg h2, bind_error_iff] at h
      rcases h with h | ⟨i, _, h⟩
      · exact absurd h (argmin_ne_error hp _)
      by_cases h3 : c.maxiter ≤ (it : Int) - 1
      · rw [if_pos h3] at h; cases h; exact ⟨rfl, h3⟩
      · rw [if_neg h3] at h; cases h
  · rw [if_neg h1] at h; cases h

section
variable {maxiter : Int} {ev : S → List (Vec K n)} {s0 : S}

theorem loop_error (hl : A.Laws maxiter ev) (hc : c.maxiter = maxiter) (hp : 0 < p) (I : S → Prop)
    (hstep : ∀ it s s' st, I s → A.step it s = .ok (s', st) → I s')
    (hpost : ∀ it s, I s → I (A.post it s)) {e : PyErr} :
    ∀ (fuel : Nat) (L : Loop S K p n), (maxiter ≤ L.it + fuel ∧ 1 ≤ fuel) → I L.s → 1 ≤ L.it →
      (2 ≤ L.it → (L.it : Int) < maxiter) → A.loop c fuel L = .error e →
      RecErr c p e ∨ ∃ it s, I s ∧ A.step it s = .error e := by
  intro fuel
  induction fuel with
  | zero => intro L h; omega
  | succ fuel ih =>
    intro L hf hI h1 h2 h
    rw [Alg.loop, bind_error_iff] at h
    rcases h with h | ⟨⟨L1, b⟩, hb, h⟩
    · unfold Alg.body at h
      rw [bind_error_iff] at h
      rcases h with h | ⟨rs, _, h⟩
      · exact Or.inr ⟨_, _, hI, h⟩
      · rw [bind_error_iff] at h
        rcases h with h | ⟨rows, _, h⟩
        · obtain ⟨h3, h4, h5⟩ := record_error hp h
          refine Or.inl ⟨h3, Or.inr ⟨h4, ?_⟩⟩
          by_contra h6
          push_cast at h5
          by_cases h7 : 2 ≤ L.it
          · have := h2 h7; omega
          · omega
        · simp at h
    · unfold Alg.body at hb
      rw [bind_ok_iff] at hb
      obtain ⟨⟨s', st⟩, hst, hb⟩ := hb
      rw [bind_ok_iff] at hb
      obtain ⟨rows, hrec, hb⟩ := hb
      simp only [Except.ok.injEq, Prod.mk.injEq] at hb
      obtain ⟨rfl, rfl⟩ := hb
      dsimp only at h
      cases st with
      | some k => simp at h
      | none =>
        simp only [Option.isSome_none, Bool.false_eq_true, if_false] at h
        have := hl.cont hst
        push_cast at this
        refine ih _ ⟨?_, ?_⟩ ?_ ?_ ?_ h
        · dsimp only; push_cast; omega
        · omega
        · exact hpost _ _ (hstep _ _ _ _ hI hst)
        · dsimp only; omega
        · intro _; dsimp only; push_cast; omega

/-- A run that raises does so in the recording of the history or in a step. -/
theorem run_error (hl : A.Laws maxiter ev) (hc : c.maxiter = maxiter) (hp : 0 < p) (I : S → Prop) (h0 : I s0)
    (hstep : ∀ it s s' st, I s → A.step it s = .ok (s', st) → I s')
    (hpost : ∀ it s, I s → I (A.post it s)) {e : PyErr} {fuel : Nat} (hf : 1 ≤ fuel)
    (hf' : maxiter ≤ 1 + (fuel : Int)) (h : A.run c fuel s0 = .error e) :
    RecErr c p e ∨ ∃ it s, I s ∧ A.step it s = .error e := by
  unfold Alg.run at h
  rw [bind_error_iff] at h
  rcases h with h | ⟨L0, hL0, h⟩
  · unfold Alg.start at h
    rw [bind_error_iff] at h
    rcases h with h | ⟨_, _, h⟩
    · exact Or.inl (record0_error h)
    · simp at h
  · have hL0' := hL0
    unfold Alg.start at hL0'
    rw [bind_ok_iff] at hL0'
    obtain ⟨rows, _, hL⟩ := hL0'
    simp only [Except.ok.injEq] at hL
    rw [bind_error_iff] at h
    rcases h with h | ⟨L1, hL1, h⟩
    · exact loop_error hl hc hp I hstep hpost fuel L0 ⟨by subst hL; push_cast; omega, hf⟩ (by subst hL; exact h0)
        (by subst hL; exact le_refl _) (by subst hL; intro h; dsimp only at h; omega) h
    · rw [bind_error_iff] at h
      rcases h with h | ⟨_, _, h⟩
      · exfalso
        have hrun : A.start c s0 = .ok L0 := hL0
        -- the loop only ends with a documented status
        have key : ∀ (fuel : Nat) (L : Loop S K p n), A.loop c fuel L = .ok L1 →
            ∃ k, L1.status = some k ∧ (k = 0 ∨ k = 1 ∨ k = -1) := by
          intro fuel
          induction fuel with
          | zero => intro L hL; simp [Alg.loop] at hL
          | succ fuel ih =>
            intro L hL
            rw [Alg.loop, bind_ok_iff] at hL
            obtain ⟨⟨L2, b⟩, hb, hL⟩ := hL
            dsimp only at hL
            by_cases hbt : b = true
            · rw [if_pos hbt, Except.ok.injEq] at hL
              subst hL
              unfold Alg.body at hb
              rw [bind_ok_iff] at hb
              obtain ⟨⟨s', st⟩, hst, hb⟩ := hb
              rw [bind_ok_iff] at hb
              obtain ⟨rows, hrec, hb⟩ := hb
              simp only [Except.ok.injEq, Prod.mk.injEq] at hb
              obtain ⟨rfl, h2⟩ := hb
              rw [hbt] at h2
              cases st with
              | none => simp at h2
              | some k => exact ⟨k, rfl, hl.codes hst⟩
            · rw [if_neg hbt] at hL
              exact ih _ hL
        obtain ⟨k, hk, hk'⟩ := key _ _ hL1
        unfold Alg.finish at h
        rw [hk] at h
        rcases hk' with rfl | rfl | rfl <;> simp [messages] at h
      · simp at h


/-- A completed run recorded its history and completed a step. -/
theorem run_ok_facts {fuel : Nat} {r} (h : A.run c fuel s0 = .ok r) :
    (c.returnAll = true → 2 ≤ c.maxiter ∧ c.nout ≤ p) ∧ ∃ r, A.step 2 s0 = .ok r := by
  unfold Alg.run at h
  rw [bind_ok_iff] at h
  obtain ⟨L0, h0, h⟩ := h
  rw [bind_ok_iff] at h
  obtain ⟨L1, h1, h⟩ := h
  unfold Alg.start at h0
  rw [bind_ok_iff] at h0
  obtain ⟨rows, hr, h0⟩ := h0
  simp only [Except.ok.injEq] at h0
  cases fuel with
  | zero => cases h1
  | succ fuel =>
    rw [Alg.loop, bind_ok_iff] at h1
    obtain ⟨b, hb, _⟩ := h1
    unfold Alg.body at hb
    rw [bind_ok_iff] at hb
    obtain ⟨s1, hs1, hb⟩ := hb
    rw [bind_ok_iff] at hb
    obtain ⟨rows', hr', _⟩ := hb
    subst h0
    refine ⟨?_, s1, hs1⟩
    intro hc
    refine ⟨?_, (record0_ok_iff.1 ⟨_, hr⟩ hc).2⟩
    by_contra hm
    dsimp only at hr'
    unfold Alg.record at hr'
    rw [if_pos hc] at hr'
    by_cases h2 : 0 < c.nout
    · rw [if_pos h2, if_pos (by push_cast; omega)] at hr'; cases hr'
    · rw [if_neg h2, bind_ok_iff] at hr'
      obtain ⟨i, _, hr'⟩ := hr'
      rw [if_pos (by push_cast; omega)] at hr'; cases hr'

end
end Stochopy
