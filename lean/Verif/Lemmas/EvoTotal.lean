import Verif.Spec.Gauss
import Verif.Lemmas.EvoRun
import Verif.Lemmas.Validation

/-! Why a run of `cmaes` or `vdcma` can fail. -/

set_option linter.unusedSectionVars false

namespace Stochopy.Evo
open Spec
variable {K σ S : Type} [AddZeroClass K] [One K] [Sub K] [Mul K] [Div K] [Neg K] [NatCast K] [IntCast K] [Pow K ℕ] [ArrayOps K] [LinearOrder K] [NumFns K] [IntParts K] {p n : Nat}
  {P : Par K n} {G : Gauss S K p n} {c : Cfg} {rng : S → σ} {fuel : Nat} {s0 : S} {e : PyErr}

/-- The Gaussian model or the evaluation fails in state `L`. -/
def PartFails (P : Par K n) (G : Gauss S K p n) (L : St S K p n) (e : PyErr) : Prop :=
  G.sample L.s = .error e ∨
  ∃ a, G.sample L.s = .ok a ∧
    (evaluate P G (L.it + 1) a.1 a.2 L.pen = .error e ∨
     ∃ r, evaluate P G (L.it + 1) a.1 a.2 L.pen = .ok r ∧
      (G.update (L.nfev + p) a.1 (P.srt p r.1) a.2 = .error e ∨
       ∃ s, G.update (L.nfev + p) a.1 (P.srt p r.1) a.2 = .ok s ∧ (∃ j, G.diagConv s j < 0) ∧ e = .unmodelled))

theorem record_error {it : Nat} {X : Pop K p n} {fit : Fin p → Val K} (hp : 0 < p) (h : record c it X fit = .error e) :
    c.returnAll = true ∧ ((e = .indexError ∧ c.maxiter ≤ (it : Int) - 1) ∨ (e = .valueError ∧ (p : Int) < c.nout ∧ p ≠ 1)) := by
  unfold record at h
  by_cases hr : c.returnAll = true
  · refine ⟨hr, ?_⟩
    rw [if_pos hr] at h
    by_cases h0 : 0 < c.nout
    · rw [if_pos h0] at h
      by_cases h1 : c.maxiter ≤ (it : Int) - 1
      · rw [if_pos h1] at h; cases h; exact Or.inl ⟨rfl, h1⟩
      · rw [if_neg h1] at h
        by_cases h2 : c.nout ≤ p
        · rw [if_pos h2] at h; cases h
        · rw [if_neg h2] at h
          by_cases h3 : p = 1
          · rw [if_pos h3] at h; cases h
          · rw [if_neg h3] at h; cases h; exact Or.inr ⟨rfl, not_le.1 h2, h3⟩
    · rw [if_neg h0, bind_error_iff] at h
      rcases h with h | ⟨i, -, h⟩
      · obtain ⟨i, hi⟩ := argmin_ok fit hp
        rw [hi] at h; cases h
      · by_cases h1 : c.maxiter ≤ (it : Int) - 1
        · rw [if_pos h1] at h; cases h; exact Or.inl ⟨rfl, h1⟩
        · rw [if_neg h1] at h; cases h
  · rw [if_neg hr] at h; cases h

theorem body_error (hp : 0 < p) {L : St S K p n} (h : body P G c L = .error e) :
    PartFails P G L e ∨ (e = .indexError ∧ c.maxiter ≤ L.it) ∨
      (e = .valueError ∧ c.returnAll = true ∧ (p : Int) < c.nout ∧ p ≠ 1) := by
  unfold body at h
  dsimp only at h
  rw [bind_error_iff] at h
  rcases h with h | ⟨a, h1, h⟩
  · exact Or.inl (Or.inl h)
  rw [bind_error_iff] at h
  rcases h with h | ⟨r, h2, h⟩
  · exact Or.inl (Or.inr ⟨a, h1, Or.inl h⟩)
  rw [bind_error_iff] at h
  rcases h with h | ⟨rows, h3, h⟩
  · obtain ⟨hr, ⟨rfl, hm⟩ | ⟨rfl, hm⟩⟩ := record_error hp h
    · exact Or.inr (Or.inl ⟨rfl, by push_cast at hm; omega⟩)
    · exact Or.inr (Or.inr ⟨rfl, hr, hm⟩)
  rw [dif_pos hp] at h
  by_cases hm : c.maxiter ≤ ((L.it + 1 : Nat) : Int) - 1
  · rw [if_pos hm] at h; cases h; exact Or.inr (Or.inl ⟨rfl, by push_cast at hm; omega⟩)
  rw [if_neg hm, bind_error_iff] at h
  rcases h with h | ⟨s, h4, h⟩
  · exact Or.inl (Or.inr ⟨a, h1, Or.inr ⟨r, h2, Or.inl h⟩⟩)
  rw [bind_error_iff] at h
  rcases h with h | ⟨u, -, h⟩
  · rw [need_error] at h
    push Not at h
    exact Or.inl (Or.inr ⟨a, h1, Or.inr ⟨r, h2, Or.inr ⟨s, h4, h⟩⟩⟩)
  · cases h

theorem loop_error (hp : 0 < p) : ∀ (fuel : Nat) (L : St S K p n), Reach P G c s0 L → (L.it : Int) < c.maxiter ∨ L.it = 0 →
    c.maxiter ≤ (L.it : Int) + fuel → 0 < fuel → loop P G c fuel L = .error e →
    (∃ L', Reach P G c s0 L' ∧ ((L'.it : Int) < c.maxiter ∨ L'.it = 0) ∧ PartFails P G L' e) ∨ (e = .indexError ∧ c.maxiter ≤ 0) ∨
      (e = .valueError ∧ c.returnAll = true ∧ (p : Int) < c.nout ∧ p ≠ 1) := by
  intro fuel
  induction fuel with
  | zero => intro L _ _ _ h; omega
  | succ k ih =>
    intro L hL hit hm _ h
    rw [loop, bind_error_iff] at h
    rcases h with h | ⟨r, hb, h⟩
    · rcases body_error hp h with h | ⟨rfl, h'⟩ | h
      · exact Or.inl ⟨L, hL, hit, h⟩
      · rcases hit with hit | hit
        · omega
        · exact Or.inr (Or.inl ⟨rfl, by rw [hit] at h'; simpa using h'⟩)
      · exact Or.inr (Or.inr h)
    by_cases hs : r.2.status.isSome = true
    · rw [if_pos hs] at h; cases h
    rw [if_neg hs] at h
    have hit : r.1.it = L.it + 1 := by
      obtain ⟨hp, a, e, rows, s, h1, h2, h3, hm, h4, h5, rfl⟩ := body_ok hb
      rfl
    obtain ⟨k1, -⟩ := body_status hb
    have hlt : ((L.it + 1 : Nat) : Int) < c.maxiter := by
      by_contra hc
      rw [k1.2 (not_lt.1 hc)] at hs
      exact hs rfl
    exact ih r.1 (hL.step hb) (Or.inl (by rw [hit]; exact hlt)) (by rw [hit]; push_cast at hm ⊢; omega)
      (by push_cast at hm hlt; omega) h

theorem run_error (hp : 0 < p) (hf : 0 < fuel) (hm : c.maxiter ≤ fuel) (h : run P G c rng fuel s0 = .error e) :
    (∃ L, Reach P G c s0 L ∧ ((L.it : Int) < c.maxiter ∨ L.it = 0) ∧ PartFails P G L e) ∨ (e = .indexError ∧ c.maxiter = 0) ∨ (e = .valueError ∧ c.maxiter < 0) ∨
      (e = .valueError ∧ c.returnAll = true ∧ (p : Int) < c.nout ∧ p ≠ 1) := by
  unfold run at h
  by_cases h0 : c.maxiter < 0
  · rw [if_pos h0] at h; cases h; exact Or.inr (Or.inr (Or.inl ⟨rfl, h0⟩))
  rw [if_neg h0, bind_error_iff] at h
  rcases h with h | ⟨r, h1, h⟩
  · rcases loop_error hp fuel _ Reach.start (Or.inr rfl) (by simpa using hm) hf h with h | ⟨rfl, h⟩ | h
    · exact Or.inl h
    · exact Or.inr (Or.inl ⟨rfl, by omega⟩)
    · exact Or.inr (Or.inr (Or.inr h))
  · obtain ⟨L', -, hb, hs⟩ := loop_ok (I := fun _ => True) (fun _ _ _ _ _ => trivial) _ _ _ trivial h1
    obtain ⟨-, -, -, k4⟩ := body_status hb
    rw [bind_error_iff] at h
    rcases h with h | ⟨res, -, h⟩
    · unfold finish at h
      have key : ∀ st : Int, some st ∈ [-8, -7, -6, -5, -4, -3, -2, -1, 0, 1].map (some : Int → Option Int) → messages st ≠ none := by
        intro st hst
        simp only [List.mem_map, List.mem_cons, List.not_mem_nil, or_false, Option.some.injEq, exists_eq_right] at hst
        rcases hst with h | h | h | h | h | h | h | h | h | h <;> subst h <;> decide
      split at h
      · rename_i hn; rw [hn] at hs; cases hs
      · rename_i st hst
        split at h
        · rename_i hmsg
          rw [hst] at k4
          rcases k4 with k4 | k4
          · cases k4
          · exact absurd hmsg (key st k4)
        · cases h
    · cases h

/-- A run that returns had a budget and room for its history. -/
theorem run_ok_cfg {o : Output σ K p n} (h : run P G c rng fuel s0 = .ok o) :
    0 < c.maxiter ∧ (c.returnAll = true → c.nout ≤ p ∨ p = 1) := by
  obtain ⟨gs, g, L', L, st, H⟩ := run_ok h (fun _ => True) trivial fun _ _ _ _ => trivial
  obtain ⟨hp, a, e, rows, s, h1, h2, h3, hm, h4, h5, hr⟩ := body_ok H.last
  refine ⟨by omega, fun hra => ?_⟩
  by_contra hc
  push Not at hc
  unfold record at h3
  rw [if_pos hra, if_pos (by omega)] at h3
  by_cases h1 : c.maxiter ≤ ((L'.it + 1 : Nat) : Int) - 1
  · rw [if_pos h1] at h3; cases h3
  · rw [if_neg h1, if_neg (not_le.2 hc.1), if_neg hc.2] at h3; cases h3

theorem Reach.nfev {L : St S K p n} (h : Reach P G c s0 L) : L.nfev = L.it * p := by
  induction h with
  | start => simp
  | step _ hb ih =>
    obtain ⟨hp, a, e, rows, s, h1, h2, h3, hm, h4, h5, rfl⟩ := body_ok hb
    show _ + p = (_ + 1) * p
    rw [ih]; ring

end Stochopy.Evo
