import Mathlib.Algebra.BigOperators.Ring.Finset
import Mathlib.LinearAlgebra.Matrix.NonsingularInverse
import Verif.Lemmas.Affine
import Verif.Spec.Chart

/-! `de` in other linear coordinates. -/

set_option linter.unusedSectionVars false

namespace Stochopy
variable {K σ : Type} [Field K] [LinearOrder K] [IsStrictOrderedRing K] {p n : Nat}

theorem unchart_chart {A B : Matrix (Fin n) (Fin n) K} (h : B * A = 1) (t x : Vec K n) : unchart B t (chart A t x) = x := by
  have : unchart B t (chart A t x) = B.mulVec (A.mulVec x) := by
    funext j
    unfold unchart chart
    simp only [add_sub_cancel_right]
    rfl
  rw [this, Matrix.mulVec_mulVec, h, Matrix.one_mulVec]

theorem chart_sub (A : Matrix (Fin n) (Fin n) K) (t a b : Vec K n) (j : Fin n) :
    chart A t a j - chart A t b j = A.mulVec (fun k => a k - b k) j := by
  have : A.mulVec (fun k => a k - b k) j = ∑ k, A j k * (a k - b k) := rfl
  rw [this]
  unfold chart
  simp only [mul_sub, Finset.sum_sub_distrib]
  ring

theorem mulVec_sq {A : Matrix (Fin n) (Fin n) K} (h : A.transpose * A = 1) (v : Vec K n) :
    ∑ j, (A.mulVec v j) ^ 2 = ∑ j, v j ^ 2 := by
  have h1 : ∑ j, (A.mulVec v j) ^ 2 = dotProduct (A.mulVec v) (A.mulVec v) := Finset.sum_congr rfl fun j _ => sq _
  have h2 : ∑ j, v j ^ 2 = dotProduct v v := Finset.sum_congr rfl fun j _ => sq _
  rw [h1, h2, Matrix.dotProduct_mulVec, ← Matrix.mulVec_transpose, Matrix.mulVec_mulVec, h, Matrix.one_mulVec]

/-- Distances do not change under isometries. -/
theorem distLe_isometry {A : Matrix (Fin n) (Fin n) K} (h : A.transpose * A = 1) (t a b : Vec K n) (tol : K) :
    distLe (chart A t a) (chart A t b) tol = distLe a b tol := by
  show (decide (0 ≤ tol) && decide (∑ j : Fin n, (chart A t a j - chart A t b j) ^ 2 ≤ tol ^ 2)) =
    (decide (0 ≤ tol) && decide (∑ j, (a j - b j) ^ 2 ≤ tol ^ 2))
  simp only [chart_sub]
  rw [mulVec_sq h]

/-- Being the same point does not depend on the coordinates. -/
theorem distLe_chart {A B : Matrix (Fin n) (Fin n) K} (h : B * A = 1) (t a b : Vec K n) :
    distLe (chart A t a) (chart A t b) 0 = distLe a b 0 := by
  have key : ∀ v : Vec K n, ∑ j, v j ^ 2 ≤ 0 ↔ v = 0 := fun v => by
    constructor
    · intro hv
      have h0 := (Finset.sum_eq_zero_iff_of_nonneg fun j _ => sq_nonneg (v j)).1
        (le_antisymm hv (Finset.sum_nonneg fun j _ => sq_nonneg (v j)))
      funext j
      exact pow_eq_zero_iff two_ne_zero |>.1 (h0 j (Finset.mem_univ j))
    · rintro rfl
      simp
  show (decide (0 ≤ (0 : K)) && decide (∑ j : Fin n, (chart A t a j - chart A t b j) ^ 2 ≤ 0 ^ 2)) =
    (decide (0 ≤ (0 : K)) && decide (∑ j, (a j - b j) ^ 2 ≤ 0 ^ 2))
  simp only [chart_sub]
  congr 1
  rw [decide_eq_decide, zero_pow two_ne_zero]
  refine (key fun j => A.mulVec (fun k => a k - b k) j).trans ((Iff.intro ?_ ?_).trans (key fun j => a j - b j).symm)
  · intro hv
    have := congrArg B.mulVec hv
    rw [Matrix.mulVec_zero] at this
    rw [← this]
    show _ = B.mulVec (A.mulVec _)
    rw [Matrix.mulVec_mulVec, h, Matrix.one_mulVec]
  · intro hv
    show A.mulVec _ = 0
    rw [hv, Matrix.mulVec_zero]

open DE

/-- The strategies commute with every change of linear coordinates. -/
theorem chart_strategyMap (A : Matrix (Fin n) (Fin n) K) (t : Vec K n) (name : String) {strat : Strategy K p n}
    (h : strategyMap name = .ok strat) (d : Fin (p - 1) → Fin p) (F : K) (X : Pop K p n) (gb : Vec K n) :
    strat d F (fun i => chart A t (X i)) (chart A t gb) = (strat d F X gb).map (chart A t) := by
  have e : ∀ a b : K, a * (F * b) = F * (a * b) := fun a b => by ring
  unfold strategyMap at h
  split_ifs at h <;> cases h
  · unfold rand1bin
    simp only [map_bind_ex]
    congr 1; funext i0; congr 1; funext i1; congr 1; funext i2
    show Except.ok _ = Except.ok _
    congr 1; funext j; unfold chart
    simp only [mul_add, mul_sub, Finset.sum_add_distrib, Finset.sum_sub_distrib, e, ← Finset.mul_sum]; ring
  · unfold rand2bin
    simp only [map_bind_ex]
    congr 1; funext i0; congr 1; funext i1; congr 1; funext i2; congr 1; funext i3; congr 1; funext i4
    show Except.ok _ = Except.ok _
    congr 1; funext j; unfold chart
    simp only [mul_add, mul_sub, Finset.sum_add_distrib, Finset.sum_sub_distrib, e, ← Finset.mul_sum]; ring
  · unfold best1bin
    simp only [map_bind_ex]
    congr 1; funext i0; congr 1; funext i1
    show Except.ok _ = Except.ok _
    congr 1; funext j; unfold chart
    simp only [mul_add, mul_sub, Finset.sum_add_distrib, Finset.sum_sub_distrib, e, ← Finset.mul_sum]; ring
  · unfold best2bin
    simp only [map_bind_ex]
    congr 1; funext i0; congr 1; funext i1; congr 1; funext i2; congr 1; funext i3
    show Except.ok _ = Except.ok _
    congr 1; funext j; unfold chart
    simp only [mul_add, mul_sub, Finset.sum_add_distrib, Finset.sum_sub_distrib, e, ← Finset.mul_sum]; ring

theorem crossover_full {irand : Nat} {r1 : Vec K n} {CR : K} (h : ∀ j, r1 j ≤ CR) (V X : Vec K n) : crossover irand r1 CR V X = V := by
  funext j
  unfold crossover
  rw [if_pos (.inr (h j))]

theorem candSync_full {ψ : Vec K n → Vec K n} {P P' : DE.Par σ K p n} (hRok : P.R.Ok) (hR : P'.R = P.R) (hF : P'.F = P.F)
    (hCR : P'.CR = P.CR) (hst : P'.strat = P.strat) (hc : P.cons = .none) (hc' : P'.cons = .none) (h1 : 1 ≤ P.CR)
    (ha : ∀ d F (X : Pop K p n) gb, P.strat d F (fun i => ψ (X i)) (ψ gb) = (P.strat d F X gb).map ψ)
    (X : Pop K p n) (gb : Vec K n) (g : σ) :
    candSync P' (fun i => ψ (X i)) (ψ gb) g = (candSync P X gb g).map fun r => (fun i => ψ (r.1 i), r.2) := by
  have hr : ∀ i j, (drawMat P.R.rand p n g).1 i j ≤ P.CR := fun i j => (hRok.rand_lt_one _).le.trans h1
  unfold candSync
  simp only [map_bind_ex]
  rw [hR, hF, hCR, hst, hc, hc']
  have e := seqFin_map ψ
    (fun i => P.strat (donors i ((drawVec (P.R.perm (p - 1)) p (drawMat P.R.rand p n g).2).1 i)) P.F X gb)
  simp only [← ha _ _ _ _] at e
  rw [e, bind_map_ex]
  congr 1; funext V; congr 1; funext _
  show Except.ok _ = Except.ok _
  congr 1
  refine Prod.ext ?_ rfl
  funext i
  dsimp only [consPop]
  rw [crossover_full (hr i), crossover_full (hr i)]

theorem candAsync_full {ψ : Vec K n → Vec K n} {P P' : DE.Par σ K p n} (hR : P'.R = P.R) (hF : P'.F = P.F)
    (hCR : P'.CR = P.CR) (hst : P'.strat = P.strat) (hc : P.cons = .none) (hc' : P'.cons = .none)
    (ha : ∀ d F (X : Pop K p n) gb, P.strat d F (fun i => ψ (X i)) (ψ gb) = (P.strat d F X gb).map ψ)
    {r1 : Vec K n} (hr : ∀ j, r1 j ≤ P.CR) (i : Fin p) (X : Pop K p n) (gb : Vec K n) (g : σ) :
    candAsync P' r1 i (fun i => ψ (X i)) (ψ gb) g = (candAsync P r1 i X gb g).map fun r => (ψ r.1, r.2) := by
  unfold candAsync
  simp only [map_bind_ex]
  rw [hR, hF, hCR, hst, hc, hc', ha, bind_map_ex]
  congr 1; funext V; congr 1; funext _
  show Except.ok _ = Except.ok _
  congr 1
  refine Prod.ext ?_ rfl
  dsimp only [consOne]
  rw [crossover_full hr, crossover_full hr]

end Stochopy
