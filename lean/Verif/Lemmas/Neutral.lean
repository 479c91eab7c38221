import Verif.Spec.Neutral
import Verif.Lemmas.EvoParams

set_option linter.unusedSectionVars false

namespace Stochopy.Spec
open MeasureTheory

variable {Ω : Type} [MeasurableSpace Ω] {P : Measure Ω} {n mu : Nat} {f g : Ω → ℝ} {a b : ℝ}

theorem HasMean.congr (h : HasMean P f a) (hf : ∀ ω, g ω = f ω) (hb : b = a) : HasMean P g b := by
  obtain rfl : g = f := funext hf
  rwa [hb]

theorem HasMean.add (h : HasMean P f a) (h' : HasMean P g b) : HasMean P (fun ω => f ω + g ω) (a + b) :=
  ⟨h.1.add h'.1, by rw [integral_add h.1 h'.1, h.2, h'.2]⟩

theorem HasMean.const_mul (c : ℝ) (h : HasMean P f a) : HasMean P (fun ω => c * f ω) (c * a) :=
  ⟨h.1.const_mul c, by rw [integral_const_mul, h.2]⟩

theorem HasMean.const [IsProbabilityMeasure P] (c : ℝ) : HasMean P (fun _ : Ω => c) c :=
  ⟨integrable_const c, by simp⟩

theorem HasMean.sum {ι : Type} (s : Finset ι) {f : ι → Ω → ℝ} {a : ι → ℝ} (h : ∀ i ∈ s, HasMean P (f i) (a i)) :
    HasMean P (fun ω => ∑ i ∈ s, f i ω) (∑ i ∈ s, a i) :=
  ⟨integrable_finsetSum s fun i hi => (h i hi).1, by
    rw [integral_finsetSum s fun i hi => (h i hi).1]; exact Finset.sum_congr rfl fun i hi => (h i hi).2⟩

variable {X Y Z : Ω → Vec ℝ n} {M N : Matrix (Fin n) (Fin n) ℝ}

theorem Cross.swap (h : Cross P X Y M) : Cross P Y X M.transpose := fun i j =>
  (h j i).congr (fun _ => mul_comm _ _) rfl

/-- `E[(aX + bY)(aX + bY)ᵀ]` of uncorrelated `X`, `Y`. -/
theorem Cross.comb (a b : ℝ) (hX : Cross P X X M) (hY : Cross P Y Y N) (h : Cross P X Y 0) :
    Cross P (fun ω j => a * X ω j + b * Y ω j) (fun ω j => a * X ω j + b * Y ω j) (a ^ 2 • M + b ^ 2 • N) := fun i j => by
  refine (((((hX i j).const_mul (a ^ 2)).add ((hY i j).const_mul (b ^ 2))).add ((h i j).const_mul (a * b))).add
    ((h j i).const_mul (a * b))).congr (fun ω => by ring) ?_
  simp

theorem Cross.mulVec_right (W : Matrix (Fin n) (Fin n) ℝ) (h : Cross P X Y M) :
    Cross P X (fun ω => W.mulVec (Y ω)) (M * W.transpose) := fun i j => by
  refine (HasMean.sum Finset.univ fun k _ => (h i k).const_mul (W j k)).congr (fun ω => ?_) ?_
  · show X ω i * (∑ k, W j k * Y ω k) = ∑ k, W j k * (X ω i * Y ω k)
    rw [Finset.mul_sum]
    exact Finset.sum_congr rfl fun k _ => by ring
  · rw [Matrix.mul_apply]
    exact Finset.sum_congr rfl fun k _ => by rw [Matrix.transpose_apply]; ring

theorem Unrelated.wsum {y : Ω → Fin mu → Vec ℝ n} (w : Vec ℝ mu) (h : Unrelated P X y) :
    Cross P X (fun ω j => ∑ k, w k * y ω k j) 0 := fun i j => by
  refine (HasMean.sum Finset.univ fun k _ => (h k i j).const_mul (w k)).congr (fun ω => ?_) ?_
  · rw [Finset.mul_sum]; exact Finset.sum_congr rfl fun k _ => by ring
  · simp

/-- The weighted sum of the steps has the covariance `(∑ w²) C`. -/
theorem NeutralSteps.wsum {y : Ω → Fin mu → Vec ℝ n} (w : Vec ℝ mu) (h : NeutralSteps P M y) :
    Cross P (fun ω j => ∑ k, w k * y ω k j) (fun ω j => ∑ k, w k * y ω k j) ((∑ k, w k ^ 2) • M) := fun i j => by
  refine (HasMean.sum Finset.univ fun k _ => HasMean.sum Finset.univ fun l _ =>
    (h.cov k l i j).const_mul (w k * w l)).congr (fun ω => ?_) ?_
  · rw [Finset.sum_mul_sum]
    exact Finset.sum_congr rfl fun k _ => Finset.sum_congr rfl fun l _ => by ring
  · rw [Matrix.smul_apply, smul_eq_mul, Finset.sum_mul]
    refine Finset.sum_congr rfl fun k _ => ?_
    rw [Finset.sum_eq_single k]
    · rw [if_pos rfl]; ring
    · intro l _ hl; simp [Ne.symm hl]
    · simp

theorem Cross.congr {X' Y' : Ω → Vec ℝ n} (h : Cross P X Y M) (hX : ∀ ω j, X' ω j = X ω j) (hY : ∀ ω j, Y' ω j = Y ω j) :
    Cross P X' Y' M := by
  obtain rfl : X' = X := funext fun ω => funext (hX ω)
  obtain rfl : Y' = Y := funext fun ω => funext (hY ω)
  exact h

theorem Cross.mulVec₂ (W : Matrix (Fin n) (Fin n) ℝ) (h : Cross P X Y M) :
    Cross P (fun ω => W.mulVec (X ω)) (fun ω => W.mulVec (Y ω)) (W * M * W.transpose) := by
  have := ((h.mulVec_right W).swap.mulVec_right W).swap
  convert this using 1
  simp [Matrix.transpose_mul, Matrix.mul_assoc]

theorem NeutralSteps.mulVec {y : Ω → Fin mu → Vec ℝ n} (W : Matrix (Fin n) (Fin n) ℝ) (h : NeutralSteps P M y) :
    NeutralSteps P (W * M * W.transpose) (fun ω k => W.mulVec (y ω k)) := by
  constructor
  · intro k i
    refine (HasMean.sum Finset.univ fun j _ => (h.mean k j).const_mul (W i j)).congr (fun _ => rfl) ?_
    simp
  · intro k l
    have := (h.cov k l).mulVec₂ W
    split_ifs at this ⊢
    · exact this
    · simpa using this

theorem Unrelated.mulVec {y : Ω → Fin mu → Vec ℝ n} (W : Matrix (Fin n) (Fin n) ℝ) (h : Unrelated P X y) :
    Unrelated P X (fun ω k => W.mulVec (y ω k)) := fun k => by
  have := (h k).mulVec_right W
  rwa [Matrix.zero_mul] at this

end Stochopy.Spec
