import Verif.Lemmas.Selection
import Verif.Lemmas.Norm
import Verif.Lemmas.Box
import Verif.Lemmas.Report

/-! The selection functions and the first population of the model in terms of pools. -/

set_option linter.unusedSectionVars false

namespace Stochopy
open Spec
variable {K σ : Type} [AddZeroClass K] [One K] [Sub K] [Mul K] [Div K] [Neg K] [NatCast K] [IntCast K] [Pow K ℕ] [ArrayOps K] [LinearOrder K] {p n : Nat}

theorem firstHolds_deferred {maxiter : Int} {xtol : K} {ftol : Val K} {it : Nat} {s s' : Pool K p n} :
    FirstHolds (stopDeferred maxiter xtol ftol it s s') (if distLe s.best s'.best xtol = true ∧ s'.bestfit ≤ ftol then some 0
      else if s'.bestfit ≤ ftol then some 1 else if maxiter ≤ (it : Int) then some (-1) else none) := by
  unfold stopDeferred
  simp only [FirstHolds]
  split_ifs with h1 h2 h3 <;> rw [distLe_iff] at h1
  · exact Or.inl ⟨h1, rfl⟩
  · exact Or.inr ⟨h1, Or.inl ⟨h2, rfl⟩⟩
  · exact Or.inr ⟨h1, Or.inr ⟨h2, Or.inl ⟨h3, rfl⟩⟩⟩
  · exact Or.inr ⟨h1, Or.inr ⟨h2, Or.inr ⟨h3, rfl⟩⟩⟩

theorem offerAll_of {it : Nat} {cand : Pop K p n} {s : Pool K p n} {maxiter : Int} {xtol : K} {ftol : Val K} {obj : Obj K n} {fn : Vec K n → Val K}
    {r : SelSync K p n} (h : selectionSync it cand s.best s.X s.fit maxiter xtol ftol obj = .ok r) (hf : obj.Faithful fn) :
    Pool.OfferAll fn s cand { X := r.x, fit := r.xfun, best := r.xbest, bestfit := r.xbestfun } ∧
    FirstHolds (stopDeferred maxiter xtol ftol it s { X := r.x, fit := r.xfun, best := r.xbest, bestfit := r.xbestfun }) r.status ∧
    r.candfun = fun i => fn (cand i) := by
  obtain ⟨h1, h2, ⟨i, h3, h4, h5⟩, h6⟩ := selectionSync_ok h hf.pop
  refine ⟨⟨fun i hi => ?_, fun i hi => ?_, i, firstBest_of_argmin h3, h4, h5⟩, ?_, funext h1⟩
  · rcases h2 i with ⟨a, b, -⟩ | ⟨-, -, a⟩
    · exact ⟨b, a⟩
    · exact absurd hi a
  · rcases h2 i with ⟨-, -, a⟩ | ⟨a, b, -⟩
    · exact absurd a hi
    · exact ⟨b, a⟩
  · rw [h6]; exact firstHolds_deferred

theorem offer_of {y : Vec K n} {s : Pool K p n} {xtol : K} {ftol : Val K} {obj : Obj K n} {fn : Vec K n → Val K} {i : Fin p} (hf : obj.Faithful fn) :
    let r := selectionAsync y s.best s.bestfit s.X s.fit xtol ftol obj i
    Pool.Offer fn s i y { X := r.x, fit := r.xfun, best := r.xbest, bestfit := r.xbestfun } ∧ r.candfun = fn y ∧
    ∀ (maxiter : Int) (it : Nat), FirstHolds (stopImmediate fn maxiter xtol ftol it s i y)
      (if r.status = none ∧ maxiter ≤ (it : Int) then some (-1) else r.status) := by
  intro r
  obtain ⟨h1, h2⟩ := selectionAsync_cases (candi := y) (xbest := s.best) (gfit := s.bestfit) (x := s.X) (xfun := s.fit) (xtol := xtol)
    (ftol := ftol) (obj := obj) (i := i) (f := fn) hf.one
  change r.candfun = fn y at h1
  rcases h2 with ⟨a1, a2, a3, ⟨a4, a5, a6, a7⟩ | ⟨a4, a5, a6, a7⟩⟩ | ⟨a1, a2, a3, a5, a6, a7⟩
  · change r.x = _ at a2; change r.xfun = _ at a3; change r.xbest = _ at a5; change r.xbestfun = _ at a6; change r.status = _ at a7
    refine ⟨⟨fun _ => ?_, fun h => absurd a1 h, fun q hq => ?_, fun _ => ⟨a5, a6⟩, fun h => absurd ⟨a1, a4⟩ h⟩, h1, fun maxiter it => ?_⟩
    · dsimp only; rw [a2, a3]; simp
    · dsimp only; rw [a2, a3]; simp [Function.update_of_ne hq]
    · unfold stopImmediate
      simp only [FirstHolds]
      split_ifs at a7 with b1 b2 <;> rw [distLe_iff] at b1
      · rw [a7]; exact Or.inl ⟨⟨⟨a1, a4⟩, b1⟩, by simp⟩
      · rw [a7]; exact Or.inr ⟨fun h => b1 h.2, Or.inl ⟨⟨⟨a1, a4⟩, b2⟩, by simp⟩⟩
      · rw [a7]
        refine Or.inr ⟨fun h => b1 h.2, Or.inr ⟨fun h => b2 h.2, ?_⟩⟩
        by_cases b3 : maxiter ≤ (it : Int)
        · exact Or.inl ⟨b3, by simp [b3]⟩
        · exact Or.inr ⟨b3, by simp [b3]⟩
  · change r.x = _ at a2; change r.xfun = _ at a3; change r.xbest = _ at a5; change r.xbestfun = _ at a6; change r.status = _ at a7
    refine ⟨⟨fun _ => ?_, fun h => absurd a1 h, fun q hq => ?_, fun h => absurd h.2 a4, fun h => ⟨a5, a6⟩⟩, h1, fun maxiter it => ?_⟩
    · dsimp only; rw [a2, a3]; simp
    · dsimp only; rw [a2, a3]; simp [Function.update_of_ne hq]
    · unfold stopImmediate
      simp only [FirstHolds]
      rw [a7]
      refine Or.inr ⟨fun h => a4 h.1.2, Or.inr ⟨fun h => a4 h.1.2, ?_⟩⟩
      by_cases b3 : maxiter ≤ (it : Int)
      · exact Or.inl ⟨b3, by simp [b3]⟩
      · exact Or.inr ⟨b3, by simp [b3]⟩
  · change r.x = _ at a2; change r.xfun = _ at a3; change r.xbest = _ at a5; change r.xbestfun = _ at a6; change r.status = _ at a7
    refine ⟨⟨fun h => absurd h a1, fun _ => ?_, fun q hq => ?_, fun h => absurd h.1 a1, fun h => ⟨a5, a6⟩⟩, h1, fun maxiter it => ?_⟩
    · dsimp only; rw [a2, a3]; exact ⟨rfl, rfl⟩
    · dsimp only; rw [a2, a3]; exact ⟨rfl, rfl⟩
    · unfold stopImmediate
      simp only [FirstHolds]
      rw [a7]
      refine Or.inr ⟨fun h => a1 h.1.1, Or.inr ⟨fun h => a1 h.1.1, ?_⟩⟩
      by_cases b3 : maxiter ≤ (it : Int)
      · exact Or.inl ⟨b3, by simp [b3]⟩
      · exact Or.inr ⟨b3, by simp [b3]⟩

theorem lhs_first (R : Rng σ K) (lower upper : Vec K n) (g : σ) :
    FirstPopulation R none lower upper g (lhs R p lower upper g).2 (lhs R p lower upper g).1 := by
  refine Or.inr ⟨rfl, (drawMat R.rand p n g).1, (drawMat R.rand p n g).2, (drawVec (R.perm p) n (drawMat R.rand p n g).2).1, rfl, rfl,
    fun _ _ => rfl⟩

/-- In exact arithmetic: the point of slice `k` is in the first half of the slice. -/
theorem firstPopulation_exact {K : Type} [Field K] [LinearOrder K] [IsStrictOrderedRing K] {R : Rng σ K} {lower upper : Vec K n} {g g' : σ}
    {X : Pop K p n} : FirstPopulation R none lower upper g g' X ↔
      ∃ u g1 π, (u, g1) = drawMat R.rand p n g ∧ (π, g') = drawVec (R.perm p) n g1 ∧
        ∀ i j, X i j = lower j + (upper j - lower j) * (((π j i).val + u (π j i) j / 2) / p) := by
  unfold FirstPopulation
  simp only [reduceCtorEq, false_and, true_and, false_or]
  refine exists_congr fun u => exists_congr fun g1 => exists_congr fun π => and_congr_right fun _ => and_congr_right fun _ =>
    forall_congr' fun i => forall_congr' fun j => ?_
  have hp : (p : K) ≠ 0 := by have : 0 < p := i.pos; exact_mod_cast this.ne'
  have e : (u (π j i) j / (p : K) + (((π j i).val : K) * (2 / (p : K)) + -1)) * (1 / 2 * (upper j - lower j)) +
      1 / 2 * (upper j + lower j) = lower j + (upper j - lower j) * (((π j i).val + u (π j i) j / 2) / p) := by
    field_simp
    ring
  rw [e]

end Stochopy
