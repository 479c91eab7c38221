import Verif.Lemmas.FlatWalk
import Verif.Props.Recur
import Mathlib.Analysis.SpecialFunctions.Gaussian.GaussianIntegral

/-!
# A smooth density that 'mcmc' with two blocks never finds from some starts

The first block walks away as long as the second one is zero, and the farther away it is the less likely is the second one to move.
-/

namespace Stochopy
open Spec MeasureTheory ProbabilityTheory Filter
open scoped ENNReal NNReal

/-! ## Integrals of Gaussian functions -/

theorem lintegral_pi_gauss (v : ℝ≥0) : ∀ {n : Nat} (f : Fin n → ℝ → ℝ≥0∞), (∀ i, Measurable (f i)) →
    ∫⁻ x : Vec ℝ n, ∏ i, f i (x i) ∂(Measure.pi fun _ => gaussianReal 0 v) = ∏ i, ∫⁻ t, f i t ∂(gaussianReal 0 v)
  | 0, f, _ => by simp
  | n + 1, f, hf => by
    have e := (measurePreserving_piFinSuccAbove (fun _ : Fin (n + 1) => gaussianReal 0 v) 0).symm
    rw [← e.lintegral_comp_emb (MeasurableEquiv.measurableEmbedding _)]
    have h : ∀ x : ℝ × (Fin n → ℝ), (∏ i, f i ((MeasurableEquiv.piFinSuccAbove (fun _ : Fin (n + 1) => ℝ) 0).symm x i)) =
        f 0 x.1 * ∏ i, f (Fin.succ i) (x.2 i) := by
      intro x
      rw [Fin.prod_univ_succ]
      rfl
    simp only [h]
    have hrest : Measurable fun y : Fin n → ℝ => ∏ i, f (Fin.succ i) (y i) :=
      Finset.measurable_fun_prod _ fun i _ => (hf i.succ).comp (measurable_pi_apply i)
    rw [lintegral_prod_mul (hf 0).aemeasurable hrest.aemeasurable,
      Fin.prod_univ_succ, lintegral_pi_gauss v (fun i => f i.succ) fun i => hf i.succ]

/-- The mean of `exp (-c x²)` for a normal number of variance `v`. -/
theorem gauss_exp_sq {v : ℝ≥0} (hv : v ≠ 0) {c : ℝ} (hc : 0 ≤ c) :
    ∫⁻ t, ENNReal.ofReal (Real.exp (-(c * t ^ 2))) ∂(gaussianReal 0 v) = ENNReal.ofReal (Real.sqrt (1 + 2 * c * v))⁻¹ := by
  have hv' : (0 : ℝ) < v := NNReal.coe_pos.2 (pos_iff_ne_zero.2 hv)
  rw [gaussianReal_of_var_ne_zero 0 hv, lintegral_withDensity_eq_lintegral_mul _ (measurable_gaussianPDF 0 v) (by fun_prop)]
  have hb : 0 < c + 1 / (2 * v) := by positivity
  have h1 : ∀ t : ℝ, (gaussianPDF 0 v * fun t => ENNReal.ofReal (Real.exp (-(c * t ^ 2)))) t =
      ENNReal.ofReal ((Real.sqrt (2 * Real.pi * v))⁻¹ * Real.exp (-(c + 1 / (2 * v)) * t ^ 2)) := by
    intro t
    show gaussianPDF 0 v t * ENNReal.ofReal (Real.exp (-(c * t ^ 2))) = _
    rw [gaussianPDF_def]
    dsimp only
    rw [gaussianPDFReal, ← ENNReal.ofReal_mul (by positivity), mul_assoc, ← Real.exp_add, sub_zero]
    congr 3
    field_simp
    ring
  simp only [h1]
  rw [← ofReal_integral_eq_lintegral_ofReal ((integrable_exp_neg_mul_sq hb).const_mul _)
    (Eventually.of_forall fun t => by positivity), integral_const_mul, integral_gaussian]
  congr 1
  rw [← Real.sqrt_inv, ← Real.sqrt_inv, ← Real.sqrt_mul (by positivity)]
  congr 1
  field_simp
  ring

/-- Four variables together. -/
theorem gauss_exp_four {v : ℝ≥0} (hv : v ≠ 0) {c : ℝ} (hc : 0 ≤ c) :
    ∫⁻ x : Vec ℝ 4, ENNReal.ofReal (Real.exp (-(c * ∑ i, x i ^ 2))) ∂(Measure.pi fun _ => gaussianReal 0 v) =
      ENNReal.ofReal ((1 + 2 * c * v) ^ 2)⁻¹ := by
  have h1 : ∀ x : Vec ℝ 4, ENNReal.ofReal (Real.exp (-(c * ∑ i, x i ^ 2))) = ∏ i, ENNReal.ofReal (Real.exp (-(c * x i ^ 2))) := by
    intro x
    rw [← ENNReal.ofReal_prod_of_nonneg fun j _ => (Real.exp_pos _).le, ← Real.exp_sum, Finset.sum_neg_distrib, Finset.mul_sum]
  simp only [h1]
  rw [lintegral_pi_gauss v (fun _ t => ENNReal.ofReal (Real.exp (-(c * t ^ 2)))) fun _ => by fun_prop]
  simp only [gauss_exp_sq hv hc]
  have hpos : (0 : ℝ) ≤ 1 + 2 * c * v := by positivity
  rw [Finset.prod_const, Finset.card_univ, Fintype.card_fin, ← ENNReal.ofReal_pow (by positivity), inv_pow]
  congr 2
  rw [show (4 : ℕ) = 2 * 2 from rfl, pow_mul, Real.sq_sqrt hpos]

/-! ## The objective -/

/-- The coordinates of the first block. -/
def low (i : Fin 4) : Fin 8 := ⟨i.val, by omega⟩

/-- The coordinates of the second block. -/
def high (i : Fin 4) : Fin 8 := ⟨4 + i.val, by omega⟩

/-- `|z|² exp |y|²`, for `x = (y, z)` with four coordinates each. -/
noncomputable def trap (x : Vec ℝ 8) : ℝ := (∑ i, x (high i) ^ 2) * Real.exp (∑ i, x (low i) ^ 2)

theorem measurable_trap : Measurable trap := by
  unfold trap
  fun_prop

/-- `exp (-|z|² exp |y|²)` has a finite integral. -/
theorem trap_integrable : ∫⁻ x, ENNReal.ofReal (Real.exp (-trap x)) ≠ ∞ := by
  have e1 := volume_measurePreserving_sumPiEquivProdPi_symm (fun _ : Fin 4 ⊕ Fin 4 => ℝ)
  have e2 := volume_measurePreserving_piCongrLeft (fun _ : Fin 8 => ℝ) (finSumFinEquiv (m := 4) (n := 4))
  rw [← e2.lintegral_comp_emb (MeasurableEquiv.measurableEmbedding _), ← e1.lintegral_comp_emb (MeasurableEquiv.measurableEmbedding _)]
  have hval : ∀ x : (Fin 4 → ℝ) × (Fin 4 → ℝ), trap ((MeasurableEquiv.piCongrLeft (fun _ : Fin 8 => ℝ) (finSumFinEquiv (m := 4) (n := 4)))
      ((MeasurableEquiv.sumPiEquivProdPi fun _ : Fin 4 ⊕ Fin 4 => ℝ).symm x)) =
      (∑ i, x.2 i ^ 2) * Real.exp (∑ i, x.1 i ^ 2) := by
    intro x
    unfold trap
    have hl : ∀ i, (MeasurableEquiv.piCongrLeft (fun _ : Fin 8 => ℝ) (finSumFinEquiv (m := 4) (n := 4)))
        ((MeasurableEquiv.sumPiEquivProdPi fun _ : Fin 4 ⊕ Fin 4 => ℝ).symm x) (low i) = x.1 i := fun i =>
      Equiv.piCongrLeft_apply_apply (fun _ : Fin 8 => ℝ) (finSumFinEquiv (m := 4) (n := 4))
        ((MeasurableEquiv.sumPiEquivProdPi fun _ : Fin 4 ⊕ Fin 4 => ℝ).symm x) (.inl i)
    have hh : ∀ i, (MeasurableEquiv.piCongrLeft (fun _ : Fin 8 => ℝ) (finSumFinEquiv (m := 4) (n := 4)))
        ((MeasurableEquiv.sumPiEquivProdPi fun _ : Fin 4 ⊕ Fin 4 => ℝ).symm x) (high i) = x.2 i := fun i =>
      Equiv.piCongrLeft_apply_apply (fun _ : Fin 8 => ℝ) (finSumFinEquiv (m := 4) (n := 4))
        ((MeasurableEquiv.sumPiEquivProdPi fun _ : Fin 4 ⊕ Fin 4 => ℝ).symm x) (.inr i)
    simp only [hl, hh]
  simp only [hval]
  have hvol : ∀ {c : ℝ}, 0 < c → ∫⁻ z : Fin 4 → ℝ, ENNReal.ofReal (Real.exp (-((∑ i, z i ^ 2) * c))) =
      ENNReal.ofReal (Real.pi ^ 2) * ENNReal.ofReal ((c ^ 2)⁻¹) := by
    intro c hc
    have h1 : ∀ z : Fin 4 → ℝ, ENNReal.ofReal (Real.exp (-((∑ i, z i ^ 2) * c))) = ∏ i, ENNReal.ofReal (Real.exp (-c * z i ^ 2)) := by
      intro z
      rw [← ENNReal.ofReal_prod_of_nonneg fun j _ => (Real.exp_pos _).le, ← Real.exp_sum, ← Finset.mul_sum, mul_comm, neg_mul]
    simp only [h1]
    have h2 := lintegral_pi_prod (n := 4) (fun _ t => ENNReal.ofReal (Real.exp (-c * t ^ 2))) fun _ => by fun_prop
    refine h2.trans ?_
    rw [← ofReal_integral_eq_lintegral_ofReal (integrable_exp_neg_mul_sq hc)
      (Eventually.of_forall fun t => (Real.exp_pos _).le), integral_gaussian, Finset.prod_const, Finset.card_univ, Fintype.card_fin,
      ← ENNReal.ofReal_pow (Real.sqrt_nonneg _), ← ENNReal.ofReal_mul (by positivity)]
    congr 1
    rw [show (4 : ℕ) = 2 * 2 from rfl, pow_mul, Real.sq_sqrt (by positivity), div_pow, div_eq_mul_inv]
  rw [show (volume : Measure ((Fin 4 → ℝ) × (Fin 4 → ℝ))) = volume.prod volume from rfl, lintegral_prod _ (by fun_prop)]
  dsimp only
  have h3 : ∀ y : Fin 4 → ℝ, ∫⁻ z : Fin 4 → ℝ, ENNReal.ofReal (Real.exp (-((∑ i, z i ^ 2) * Real.exp (∑ i, y i ^ 2)))) =
      ENNReal.ofReal (Real.pi ^ 2) * ENNReal.ofReal (Real.exp (-((∑ i, y i ^ 2) * 2))) := by
    intro y
    rw [hvol (Real.exp_pos _), ← Real.exp_nat_mul, ← Real.exp_neg]
    congr 4
    push_cast
    ring
  simp only [h3]
  rw [lintegral_const_mul _ (by fun_prop), hvol two_pos]
  exact ENNReal.mul_ne_top ENNReal.ofReal_ne_top (ENNReal.mul_ne_top ENNReal.ofReal_ne_top ENNReal.ofReal_ne_top)

/-! ## The chain -/

/-- The sum of the normal vectors used in the first `k` moves of the first block. -/
def evenSum (ω : Nat → Vec ℝ 4 × ℝ) (k : Nat) : Vec ℝ 4 := fun i => ∑ j ∈ Finset.range k, (ω (2 * j)).1 i

/-- The point `(y, 0)`. -/
def onPlane (y : Vec ℝ 4) : Vec ℝ 8 := fun c => if h : c.val < 4 then y ⟨c.val, h⟩ else 0

/-- The second block is accepted in its move number `j`. -/
def Escape (j : Nat) : Set (Nat → Vec ℝ 4 × ℝ) :=
  {ω | (ω (2 * j + 1)).2 < Real.exp (-((∑ i, (ω (2 * j + 1)).1 i ^ 2) * Real.exp (∑ i, evenSum ω (j + 1) i ^ 2)))}

theorem onPlane_low (y : Vec ℝ 4) (i : Fin 4) : onPlane y (low i) = y i := dif_pos i.isLt

theorem onPlane_high (y : Vec ℝ 4) (i : Fin 4) : onPlane y (high i) = 0 :=
  dif_neg (show ¬ 4 + i.val < 4 by omega)

theorem trap_onPlane (y : Vec ℝ 4) : trap (onPlane y) = 0 := by
  unfold trap
  simp only [onPlane_high]
  simp

/-- As long as the second block is never accepted, it stays zero, and the first block is a random walk. -/
theorem trapped {ω : Nat → Vec ℝ 4 × ℝ} (hω : ∀ k, (ω k).2 ∈ Set.Ico (0 : ℝ) 1) (hE : ∀ j, ω ∉ Escape j) :
    ∀ k, chain (mcmcNext trap (fun _ => 1) (per := 4) (by decide)) 0 ω k = onPlane (evenSum ω ((k + 1) / 2))
  | 0 => by
    funext c
    show (0 : ℝ) = if h : c.val < 4 then evenSum ω 0 ⟨c.val, h⟩ else 0
    split
    · simp [evenSum]
    · rfl
  | k + 1 => by
    have ih := trapped hω hE k
    show mcmcNext trap (fun _ => 1) _ k (chain _ 0 ω k) (ω k) = _
    rw [ih]
    unfold mcmcNext walkStep
    dsimp only
    rw [Val.fin_sub, trap_onPlane, show blockCount 8 4 = 2 from rfl]
    rcases Nat.even_or_odd' k with ⟨j, rfl | rfl⟩
    · have e1 : (2 * j + 1) / 2 = j := by omega
      have e2 : (2 * j + 1 + 1) / 2 = j + 1 := by omega
      rw [e1, e2, show 2 * j % 2 = 0 by omega]
      have hmove : blockMove (fun _ => 1) 4 0 (onPlane (evenSum ω j))
          (fun c : Fin 8 => (ω (2 * j)).1 ⟨c.val % 4, Nat.mod_lt _ (by decide)⟩) = onPlane (evenSum ω (j + 1)) := by
        funext c
        unfold blockMove onPlane
        by_cases h : c.val < 4
        · rw [if_pos (Nat.div_eq_of_lt h), dif_pos h, dif_pos h, mul_one]
          unfold evenSum
          rw [Finset.sum_range_succ]
          have hc : (⟨c.val % 4, Nat.mod_lt _ (by decide)⟩ : Fin 4) = ⟨c.val, h⟩ := Fin.ext (Nat.mod_eq_of_lt h)
          simp only [hc]
        · rw [if_neg (by omega), dif_neg h, dif_neg h]
      rw [hmove, trap_onPlane, if_pos ((metropolis_exp (hω _).1 (hω _).2).2 (by rw [sub_self, Real.exp_zero]; exact (hω _).2))]
    · have e1 : (2 * j + 1 + 1) / 2 = j + 1 := by omega
      have e2 : (2 * j + 1 + 1 + 1) / 2 = j + 1 := by omega
      rw [e1, e2, show (2 * j + 1) % 2 = 1 by omega]
      refine if_neg fun hacc => hE j ?_
      have h := (metropolis_exp (hω _).1 (hω _).2).1 hacc
      rw [zero_sub] at h
      refine lt_of_lt_of_eq h ?_
      unfold trap
      congr 3
      · refine Finset.sum_congr rfl fun i _ => ?_
        unfold blockMove
        have hc : (⟨(high i).val % 4, Nat.mod_lt _ (by decide)⟩ : Fin 4) = i := Fin.ext (show (4 + i.val) % 4 = i.val by omega)
        have hd : (high i).val / 4 = 1 := show (4 + i.val) / 4 = 1 by omega
        simp only [hc, if_pos hd, onPlane_high, zero_add, mul_one]

/-! ## The probability to escape -/

theorem measurable_evenSum (k : Nat) : Measurable fun ω : Nat → Vec ℝ 4 × ℝ => evenSum ω k :=
  measurable_pi_lambda _ fun j => Finset.measurable_sum _ fun i _ =>
    (measurable_pi_apply j).comp (measurable_fst.comp (measurable_pi_apply (2 * i)))

/-- The inputs from number `k` on. -/
def later {Ω : Type} (ω : Nat → Ω) (k : Nat) : Nat → Ω := fun i => ω (k + i)

theorem measurable_later {Ω : Type} [MeasurableSpace Ω] (k : Nat) : Measurable fun ω : Nat → Ω => later ω k :=
  measurable_pi_lambda _ fun i => measurable_pi_apply (k + i)

/-- The walk is independent of the later inputs. -/
theorem evenSum_law : ∀ j : Nat, (inputs ((gauss 4).prod unifLaw)).map (fun ω => (evenSum ω (j + 1), later ω (2 * j + 1))) =
    (Measure.pi fun _ : Fin 4 => gaussianReal 0 (j + 1 : ℝ≥0)).prod (inputs ((gauss 4).prod unifLaw))
  | 0 => by
    have hpr : IsProbabilityMeasure (inputs ((gauss 4).prod unifLaw)) := by unfold inputs; infer_instance
    have hc := inputs_cons ((gauss 4).prod unifLaw)
    have hm : Measurable fun ω : Nat → Vec ℝ 4 × ℝ => (evenSum ω (0 + 1), later ω (2 * 0 + 1)) :=
      (measurable_evenSum _).prodMk (measurable_later _)
    have he : (fun ω : Nat → Vec ℝ 4 × ℝ => (evenSum ω (0 + 1), later ω (2 * 0 + 1))) ∘ cons = Prod.map Prod.fst id := by
      funext z
      refine Prod.ext ?_ ?_
      · funext i
        show ∑ j ∈ Finset.range (0 + 1), (cons z (2 * j)).1 i = z.1.1 i
        rw [Finset.sum_range_succ, Finset.sum_range_zero, zero_add]
        rfl
      · funext i
        show cons z (2 * 0 + 1 + i) = z.2 i
        rw [show 2 * 0 + 1 + i = i + 1 by omega]
        rfl
    conv_lhs => rw [← hc]
    rw [Measure.map_map hm measurable_cons, he, ← Measure.map_prod_map _ _ measurable_fst measurable_id, Measure.map_id,
      Measure.map_fst_prod, measure_univ, one_smul]
    simp [gauss]
  | j + 1 => by
    have hpr : IsProbabilityMeasure (inputs ((gauss 4).prod unifLaw)) := by unfold inputs; infer_instance
    have ih := evenSum_law j
    have hc := inputs_cons ((gauss 4).prod unifLaw)
    have hadd : Measurable fun z : Vec ℝ 4 × Vec ℝ 4 => fun j => z.1 j + z.2 j := measurable_pi_lambda _ fun j =>
      ((measurable_pi_apply j).comp measurable_fst).add ((measurable_pi_apply j).comp measurable_snd)
    -- one sweep
    have hG : Measurable fun e : Vec ℝ 4 × (Nat → Vec ℝ 4 × ℝ) => ((fun i => e.1 i + (e.2 1).1 i : Vec ℝ 4), later e.2 2) := by
      refine Measurable.prodMk (measurable_pi_lambda _ fun i => ?_) ((measurable_later 2).comp measurable_snd)
      exact ((measurable_pi_apply i).comp measurable_fst).add
        ((measurable_pi_apply i).comp (measurable_fst.comp ((measurable_pi_apply 1).comp measurable_snd)))
    have hstep : (fun ω : Nat → Vec ℝ 4 × ℝ => (evenSum ω (j + 1 + 1), later ω (2 * (j + 1) + 1))) =
        (fun e : Vec ℝ 4 × (Nat → Vec ℝ 4 × ℝ) => ((fun i => e.1 i + (e.2 1).1 i : Vec ℝ 4), later e.2 2)) ∘
          fun ω => (evenSum ω (j + 1), later ω (2 * j + 1)) := by
      funext ω
      refine Prod.ext ?_ ?_
      · funext i
        show ∑ l ∈ Finset.range (j + 1 + 1), (ω (2 * l)).1 i = _
        rw [Finset.sum_range_succ]
        rfl
      · funext i
        show ω (2 * (j + 1) + 1 + i) = ω (2 * j + 1 + (2 + i))
        congr 1
        omega
    rw [hstep, ← Measure.map_map hG ((measurable_evenSum _).prodMk (measurable_later _)), ih]
    set N := Measure.pi fun _ : Fin 4 => gaussianReal 0 (j + 1 : ℝ≥0) with hN
    set P := (gauss 4).prod unifLaw with hP
    -- read the next two inputs
    have hc2 : (P.prod (P.prod (inputs P))).map (fun r => cons (r.1, cons r.2)) = inputs P := by
      have h1 := Measure.map_prod_map P (P.prod (inputs P)) measurable_id measurable_cons
      rw [Measure.map_id, hc] at h1
      have h3 := Measure.map_map (μ := P.prod (P.prod (inputs P))) measurable_cons (measurable_id.prodMap measurable_cons)
      rw [← h1] at h3
      exact h3.symm.trans hc
    have hcm : Measurable fun r : (Vec ℝ 4 × ℝ) × ((Vec ℝ 4 × ℝ) × (Nat → Vec ℝ 4 × ℝ)) => cons (r.1, cons r.2) :=
      measurable_cons.comp (measurable_id.prodMap measurable_cons)
    have h2 := Measure.map_prod_map N (P.prod (P.prod (inputs P))) measurable_id hcm
    rw [Measure.map_id, hc2] at h2
    rw [h2, Measure.map_map hG (measurable_id.prodMap hcm)]
    have he : (fun e : Vec ℝ 4 × (Nat → Vec ℝ 4 × ℝ) => ((fun i => e.1 i + (e.2 1).1 i : Vec ℝ 4), later e.2 2)) ∘
        Prod.map id (fun r : (Vec ℝ 4 × ℝ) × ((Vec ℝ 4 × ℝ) × (Nat → Vec ℝ 4 × ℝ)) => cons (r.1, cons r.2)) =
        (fun e : Vec ℝ 4 × ((Vec ℝ 4 × ℝ) × (Nat → Vec ℝ 4 × ℝ)) => ((fun i => e.1 i + e.2.1.1 i : Vec ℝ 4), e.2.2)) ∘
          Prod.map id Prod.snd := by
      funext e
      refine Prod.ext rfl ?_
      funext i
      show cons (e.2.1, cons e.2.2) (2 + i) = e.2.2.2 i
      rw [Nat.add_comm]
      rfl
    have hG2 : Measurable fun e : Vec ℝ 4 × ((Vec ℝ 4 × ℝ) × (Nat → Vec ℝ 4 × ℝ)) => ((fun i => e.1 i + e.2.1.1 i : Vec ℝ 4), e.2.2) := by
      refine Measurable.prodMk (measurable_pi_lambda _ fun i => ?_) (measurable_snd.comp measurable_snd)
      exact ((measurable_pi_apply i).comp measurable_fst).add
        ((measurable_pi_apply i).comp (measurable_fst.comp (measurable_fst.comp measurable_snd)))
    rw [he, ← Measure.map_map hG2 (measurable_id.prodMap measurable_snd), ← Measure.map_prod_map _ _ measurable_id measurable_snd,
      Measure.map_id, Measure.map_snd_prod, measure_univ, one_smul, ← Measure.prodAssoc_prod,
      Measure.map_map hG2 (MeasurableEquiv.measurable _)]
    have he2 : (fun e : Vec ℝ 4 × ((Vec ℝ 4 × ℝ) × (Nat → Vec ℝ 4 × ℝ)) => ((fun i => e.1 i + e.2.1.1 i : Vec ℝ 4), e.2.2)) ∘
        MeasurableEquiv.prodAssoc =
        Prod.map ((fun z : Vec ℝ 4 × Vec ℝ 4 => (fun j => z.1 j + z.2 j : Vec ℝ 4)) ∘ Prod.map id Prod.fst) id := rfl
    rw [he2, ← Measure.map_prod_map _ _ (hadd.comp (measurable_id.prodMap measurable_fst)) measurable_id, Measure.map_id,
      ← Measure.map_map hadd (measurable_id.prodMap measurable_fst), ← Measure.map_prod_map _ _ measurable_id measurable_fst,
      Measure.map_id]
    have hfst : P.map Prod.fst = Measure.pi fun _ : Fin 4 => gaussianReal 0 1 := by
      rw [hP, Measure.map_fst_prod, measure_univ, one_smul]
      rfl
    have := gauss_add 4 (j + 1 : ℝ≥0) 1
    rw [hfst, hN, this]
    push_cast
    rfl

/-- The probability of acceptance, given the place of the first block. -/
theorem escape_given (y : Vec ℝ 4) : ((gauss 4).prod unifLaw) {r | r.2 < Real.exp (-((∑ i, r.1 i ^ 2) * Real.exp (∑ i, y i ^ 2)))} ≤
    ENNReal.ofReal (1 / 4) * ENNReal.ofReal (Real.exp (-(2 * ∑ i, y i ^ 2))) := by
  have hS : MeasurableSet {r : Vec ℝ 4 × ℝ | r.2 < Real.exp (-((∑ i, r.1 i ^ 2) * Real.exp (∑ i, y i ^ 2)))} :=
    measurableSet_lt (by fun_prop) (by fun_prop)
  rw [Measure.prod_apply hS]
  have h1 : ∀ z : Vec ℝ 4, unifLaw (Prod.mk z ⁻¹' {r : Vec ℝ 4 × ℝ | r.2 < Real.exp (-((∑ i, r.1 i ^ 2) * Real.exp (∑ i, y i ^ 2)))}) ≤
      ENNReal.ofReal (Real.exp (-(Real.exp (∑ i, y i ^ 2) * ∑ i, z i ^ 2))) := by
    intro z
    unfold unifLaw
    have hs : MeasurableSet (Prod.mk z ⁻¹' {r : Vec ℝ 4 × ℝ | r.2 < Real.exp (-((∑ i, r.1 i ^ 2) * Real.exp (∑ i, y i ^ 2)))}) :=
      measurable_prodMk_left hS
    rw [Measure.restrict_apply hs]
    refine le_trans (measure_mono (t := Set.Ico 0 (Real.exp (-(Real.exp (∑ i, y i ^ 2) * ∑ i, z i ^ 2)))) ?_) ?_
    · rintro u ⟨hu, hu0⟩
      refine ⟨hu0.1, lt_of_lt_of_eq hu ?_⟩
      rw [mul_comm]
    · rw [Real.volume_Ico, sub_zero]
  refine (lintegral_mono h1).trans ?_
  have h2 := gauss_exp_four (v := 1) one_ne_zero (Real.exp_pos (∑ i, y i ^ 2)).le
  refine h2.le.trans ?_
  rw [← ENNReal.ofReal_mul (by norm_num)]
  refine ENNReal.ofReal_le_ofReal ?_
  have he : Real.exp (-(2 * ∑ i, y i ^ 2)) = ((Real.exp (∑ i, y i ^ 2)) ^ 2)⁻¹ := by
    rw [← Real.exp_nat_mul, ← Real.exp_neg]
    push_cast
    rfl
  rw [he]
  have hp := Real.exp_pos (∑ i, y i ^ 2)
  set E := Real.exp (∑ i, y i ^ 2)
  rw [show 1 / 4 * (E ^ 2)⁻¹ = ((2 * E) ^ 2)⁻¹ by field_simp; norm_num]
  refine inv_anti₀ (by positivity) (pow_le_pow_left₀ (by positivity) ?_ 2)
  push_cast
  linarith

theorem measurableSet_escape (j : Nat) : MeasurableSet (Escape j) := by
  unfold Escape
  have h1 : Measurable fun ω : Nat → Vec ℝ 4 × ℝ => ω (2 * j + 1) := measurable_pi_apply _
  have h2 := measurable_evenSum (j + 1)
  have h3 : ∀ i, Measurable fun ω : Nat → Vec ℝ 4 × ℝ => evenSum ω (j + 1) i := fun i => (measurable_pi_apply i).comp h2
  have h4 : ∀ i, Measurable fun ω : Nat → Vec ℝ 4 × ℝ => (ω (2 * j + 1)).1 i := fun i =>
    (measurable_pi_apply i).comp (measurable_fst.comp h1)
  exact measurableSet_lt (measurable_snd.comp h1) (Real.measurable_exp.comp ((Finset.measurable_sum _ fun i _ =>
    (h4 i).pow_const 2).mul (Real.measurable_exp.comp (Finset.measurable_sum _ fun i _ => (h3 i).pow_const 2))).neg)

theorem escape_prob (j : Nat) : inputs ((gauss 4).prod unifLaw) (Escape j) ≤ ENNReal.ofReal (1 / (64 * (j + 1) ^ 2)) := by
  have hpr : IsProbabilityMeasure (inputs ((gauss 4).prod unifLaw)) := by unfold inputs; infer_instance
  let A : Set (Vec ℝ 4 × (Nat → Vec ℝ 4 × ℝ)) := {e | (e.2 0).2 < Real.exp (-((∑ i, (e.2 0).1 i ^ 2) * Real.exp (∑ i, e.1 i ^ 2)))}
  have hA : MeasurableSet A := by
    have h1 : Measurable fun e : Vec ℝ 4 × (Nat → Vec ℝ 4 × ℝ) => e.2 0 := (measurable_pi_apply 0).comp measurable_snd
    have h4 : ∀ i, Measurable fun e : Vec ℝ 4 × (Nat → Vec ℝ 4 × ℝ) => (e.2 0).1 i := fun i =>
      (measurable_pi_apply i).comp (measurable_fst.comp h1)
    have h3 : ∀ i, Measurable fun e : Vec ℝ 4 × (Nat → Vec ℝ 4 × ℝ) => e.1 i := fun i => (measurable_pi_apply i).comp measurable_fst
    exact measurableSet_lt (measurable_snd.comp h1) (Real.measurable_exp.comp ((Finset.measurable_sum _ fun i _ =>
      (h4 i).pow_const 2).mul (Real.measurable_exp.comp (Finset.measurable_sum _ fun i _ => (h3 i).pow_const 2))).neg)
  have hEA : Escape j = (fun ω => (evenSum ω (j + 1), later ω (2 * j + 1))) ⁻¹' A := rfl
  rw [hEA, ← Measure.map_apply ((measurable_evenSum _).prodMk (measurable_later _)) hA, evenSum_law j, Measure.prod_apply hA]
  have h1 : ∀ y : Vec ℝ 4, inputs ((gauss 4).prod unifLaw) (Prod.mk y ⁻¹' A) ≤
      ENNReal.ofReal (1 / 4) * ENNReal.ofReal (Real.exp (-(2 * ∑ i, y i ^ 2))) := by
    intro y
    refine le_trans (le_of_eq ?_) (escape_given y)
    have h2 : (inputs ((gauss 4).prod unifLaw)).map (fun ω => ω 0) = (gauss 4).prod unifLaw := by
      unfold inputs
      exact Measure.infinitePi_map_eval _ 0
    have hS : MeasurableSet {r : Vec ℝ 4 × ℝ | r.2 < Real.exp (-((∑ i, r.1 i ^ 2) * Real.exp (∑ i, y i ^ 2)))} :=
      measurableSet_lt (by fun_prop) (by fun_prop)
    conv_rhs => rw [← h2]
    rw [Measure.map_apply (measurable_pi_apply 0) hS]
    rfl
  refine (lintegral_mono h1).trans ?_
  rw [lintegral_const_mul _ (by fun_prop)]
  have hj : (j + 1 : ℝ≥0) ≠ 0 := by positivity
  rw [gauss_exp_four hj zero_le_two, ← ENNReal.ofReal_mul (by norm_num)]
  refine ENNReal.ofReal_le_ofReal ?_
  push_cast
  have hj0 : (0 : ℝ) ≤ j := Nat.cast_nonneg j
  rw [show (1 : ℝ) / (64 * (j + 1) ^ 2) = 1 / 4 * ((4 * ((j : ℝ) + 1)) ^ 2)⁻¹ by field_simp; norm_num]
  refine mul_le_mul_of_nonneg_left (inv_anti₀ (by positivity) (pow_le_pow_left₀ (by positivity) ?_ 2)) (by norm_num)
  linarith

/-- Altogether. -/
theorem escape_total : inputs ((gauss 4).prod unifLaw) (⋃ j, Escape j) ≤ ENNReal.ofReal (1 / 32) := by
  refine (measure_iUnion_le _).trans ((ENNReal.tsum_le_tsum escape_prob).trans ?_)
  refine ENNReal.tsum_le_of_sum_range_le fun m => ?_
  rw [← ENNReal.ofReal_sum_of_nonneg fun j _ => by positivity]
  refine ENNReal.ofReal_le_ofReal ?_
  have key : ∀ m : Nat, ∑ j ∈ Finset.range (m + 1), (1 : ℝ) / (64 * ((j : ℝ) + 1) ^ 2) ≤ 1 / 32 - 1 / (64 * ((m : ℝ) + 1)) := by
    intro m
    induction m with
    | zero => norm_num
    | succ m ih =>
      rw [Finset.sum_range_succ]
      have hm : (0 : ℝ) ≤ m := Nat.cast_nonneg m
      have h1 : (1 : ℝ) / (64 * (((m + 1 : Nat) : ℝ) + 1) ^ 2) ≤ 1 / (64 * (m + 1)) - 1 / (64 * ((m + 1 : Nat) + 1)) := by
        push_cast
        rw [div_sub_div _ _ (by positivity) (by positivity), div_le_div_iff₀ (by positivity) (by positivity)]
        nlinarith [mul_nonneg hm hm]
      linarith
  cases m with
  | zero => norm_num
  | succ m =>
    have : (0 : ℝ) ≤ 1 / (64 * (m + 1)) := by positivity
    have := key m
    linarith

end Stochopy
