import Verif.Spec.Recur
import Mathlib.Dynamics.Ergodic.Conservative
import Mathlib.MeasureTheory.Integral.Prod

/-!
# Markov chains with an invariant law visit every region that they can reach in one step
-/

namespace Stochopy
open Spec MeasureTheory Filter
open scoped ENNReal

variable {X Ω : Type} [MeasurableSpace X] [MeasurableSpace Ω]

/-- One more input at the beginning. -/
def cons (z : Ω × (Nat → Ω)) : Nat → Ω
  | 0 => z.1
  | k + 1 => z.2 k

theorem measurable_cons : Measurable (cons : Ω × (Nat → Ω) → Nat → Ω) := by
  refine measurable_pi_lambda _ fun k => ?_
  cases k with
  | zero => exact measurable_fst
  | succ k => exact (measurable_pi_apply k).comp measurable_snd

theorem inputs_cons (P : Measure Ω) [IsProbabilityMeasure P] : (P.prod (inputs P)).map cons = inputs P := by
  unfold inputs
  refine Measure.eq_infinitePi (fun _ : Nat => P) fun s t ht => ?_
  rw [Measure.map_apply measurable_cons (MeasurableSet.pi s.countable_toSet fun i _ => ht i)]
  classical
  set s' : Finset Nat := (s.erase 0).image Nat.pred with hs'
  have hmem : ∀ k, k ∈ s' ↔ k + 1 ∈ s := by
    intro k
    rw [hs', Finset.mem_image]
    constructor
    · rintro ⟨a, ha, rfl⟩
      have h0 := Finset.ne_of_mem_erase ha
      have := Finset.mem_of_mem_erase ha
      rwa [show Nat.pred a + 1 = a from Nat.succ_pred_eq_of_ne_zero h0]
    · intro h
      exact ⟨k + 1, Finset.mem_erase.2 ⟨by omega, h⟩, rfl⟩
  set A : Set Ω := if 0 ∈ s then t 0 else Set.univ with hA
  have hset : cons ⁻¹' (Set.pi s t) = A ×ˢ Set.pi (s' : Set Nat) fun k => t (k + 1) := by
    ext z
    simp only [Set.mem_preimage, Set.mem_pi, Set.mem_prod, Finset.mem_coe]
    constructor
    · intro h
      refine ⟨?_, fun k hk => h (k + 1) ((hmem k).1 hk)⟩
      rw [hA]
      split
      · rename_i h0
        exact h 0 h0
      · trivial
    · rintro ⟨h0, h1⟩ k hk
      cases k with
      | zero =>
        rw [hA, if_pos hk] at h0
        exact h0
      | succ k => exact h1 k ((hmem k).2 hk)
  rw [hset, Measure.prod_prod, Measure.infinitePi_pi (fun _ : Nat => P) fun i _ => ht (i + 1)]
  have himg : Finset.image Nat.succ s' = s.erase 0 := by
    ext k
    rw [Finset.mem_image, Finset.mem_erase]
    constructor
    · rintro ⟨a, ha, rfl⟩
      exact ⟨by omega, (hmem a).1 ha⟩
    · rintro ⟨h0, h1⟩
      refine ⟨k - 1, (hmem _).2 ?_, by omega⟩
      rwa [show k - 1 + 1 = k by omega]
  have hprod : ∏ k ∈ s', P (t (k + 1)) = ∏ k ∈ s.erase 0, P (t k) := by
    rw [← himg, Finset.prod_image fun a _ b _ h => Nat.succ_injective h]
  rw [hprod, hA]
  split
  · rename_i h0
    exact Finset.mul_prod_erase s (fun k => P (t k)) h0
  · rename_i h0
    rw [measure_univ, one_mul, Finset.erase_eq_of_notMem h0]

instance (P : Measure Ω) [IsProbabilityMeasure P] : IsProbabilityMeasure (inputs P) := by
  unfold inputs
  infer_instance

/-- One step of the chain together with its inputs. -/
def advanceChain (step : X → Ω → X) (z : X × (Nat → Ω)) : X × (Nat → Ω) := (step z.1 (z.2 0), fun k => z.2 (k + 1))

theorem advanceChain_iterate (step : X → Ω → X) (k : Nat) (x : X) (ω : Nat → Ω) :
    (advanceChain step)^[k] (x, ω) = (chain (fun _ => step) x ω k, fun i => ω (k + i)) := by
  induction k with
  | zero => simp [chain]
  | succ k ih =>
    rw [Function.iterate_succ_apply', ih]
    refine Prod.ext rfl (funext fun i => ?_)
    show ω (k + (i + 1)) = ω (k + 1 + i)
    rw [show k + (i + 1) = k + 1 + i by omega]

theorem measurable_advanceChain {step : X → Ω → X} (hm : Measurable fun e : X × Ω => step e.1 e.2) :
    Measurable (advanceChain step) := by
  refine Measurable.prodMk (hm.comp (measurable_fst.prodMk ((measurable_pi_apply 0).comp measurable_snd))) ?_
  exact measurable_pi_lambda _ fun k => (measurable_pi_apply (k + 1)).comp measurable_snd

theorem advanceChain_preserving {π : Measure X} [IsFiniteMeasure π] {P : Measure Ω} [IsProbabilityMeasure P] {step : X → Ω → X}
    (hm : Measurable fun e : X × Ω => step e.1 e.2) (hinv : (π.prod P).map (fun e => step e.1 e.2) = π) :
    MeasurePreserving (advanceChain step) (π.prod (inputs P)) (π.prod (inputs P)) := by
  refine ⟨measurable_advanceChain hm, ?_⟩
  have h1 : π.prod (inputs P) = (π.prod (P.prod (inputs P))).map (Prod.map id cons) := by
    rw [← Measure.map_prod_map _ _ measurable_id measurable_cons, inputs_cons, Measure.map_id]
  have h2 : (π.prod P).prod (inputs P) = (π.prod (P.prod (inputs P))).map MeasurableEquiv.prodAssoc.symm := by
    rw [← Measure.prodAssoc_prod, Measure.map_map MeasurableEquiv.prodAssoc.symm.measurable MeasurableEquiv.prodAssoc.measurable]
    simp
  have h3 : advanceChain step ∘ Prod.map id cons =
      Prod.map (fun e : X × Ω => step e.1 e.2) (id : (Nat → Ω) → Nat → Ω) ∘ MeasurableEquiv.prodAssoc.symm := by
    funext z
    rfl
  calc (π.prod (inputs P)).map (advanceChain step)
      = (π.prod (P.prod (inputs P))).map (advanceChain step ∘ Prod.map id cons) := by
        rw [h1, Measure.map_map (measurable_advanceChain hm) (measurable_id.prodMap measurable_cons)]
    _ = ((π.prod P).prod (inputs P)).map (Prod.map (fun e : X × Ω => step e.1 e.2) id) := by
        rw [h3, h2, Measure.map_map (hm.prodMap measurable_id) MeasurableEquiv.prodAssoc.symm.measurable]
    _ = π.prod (inputs P) := by
        rw [← Measure.map_prod_map _ _ hm measurable_id, hinv, Measure.map_id]

/-- The inputs with which the chain is in `B` infinitely often. -/
theorem measurable_often {step : X → Ω → X} (hm : Measurable fun e : X × Ω => step e.1 e.2) {B : Set X} (hB : MeasurableSet B) :
    MeasurableSet {z : X × (Nat → Ω) | ∃ᶠ k in atTop, ((advanceChain step)^[k] z).1 ∈ B} := by
  have : {z : X × (Nat → Ω) | ∃ᶠ k in atTop, ((advanceChain step)^[k] z).1 ∈ B} =
      ⋂ n : Nat, ⋃ k : Nat, {z | n ≤ k ∧ ((advanceChain step)^[k] z).1 ∈ B} := by
    ext z
    simp only [Set.mem_setOf_eq, Set.mem_iInter, Set.mem_iUnion, frequently_atTop, ge_iff_le]
  rw [this]
  refine MeasurableSet.iInter fun n => MeasurableSet.iUnion fun k => ?_
  have h1 : MeasurableSet {z : X × (Nat → Ω) | ((advanceChain step)^[k] z).1 ∈ B} :=
    measurable_fst.comp ((measurable_advanceChain hm).iterate k) hB
  by_cases h : n ≤ k
  · simpa [h] using h1
  · simp [h]

/-- Functions that are their own average after one step do not change along the chain. -/
theorem harmonic_step {π : Measure X} [IsFiniteMeasure π] {P : Measure Ω} [IsProbabilityMeasure P] {step : X → Ω → X}
    (hm : Measurable fun e : X × Ω => step e.1 e.2) (hinv : (π.prod P).map (fun e => step e.1 e.2) = π) {u : X → ℝ}
    (hum : Measurable u) (hu0 : ∀ x, 0 ≤ u x) (hu1 : ∀ x, u x ≤ 1) (hustep : ∀ x, ∫ r, u (step x r) ∂P = u x) :
    ∀ᵐ e ∂(π.prod P), u (step e.1 e.2) = u e.1 := by
  have hus : Measurable fun e : X × Ω => u (step e.1 e.2) := hum.comp hm
  have hbdd : ∀ {F : X × Ω → ℝ}, Measurable F → (∀ e, |F e| ≤ 4) → Integrable F (π.prod P) := fun hF h4 =>
    Integrable.of_bound hF.aestronglyMeasurable 4 (ae_of_all _ fun e => by simpa using h4 e)
  have habs : ∀ x, |u x| ≤ 1 := fun x => abs_le.2 ⟨by linarith [hu0 x], hu1 x⟩
  have hi1 : Integrable (fun e : X × Ω => u (step e.1 e.2) ^ 2) (π.prod P) :=
    hbdd (hus.pow_const 2) fun e => by
      rw [abs_pow]
      nlinarith [habs (step e.1 e.2), abs_nonneg (u (step e.1 e.2))]
  have hi2 : Integrable (fun e : X × Ω => u e.1 ^ 2) (π.prod P) :=
    hbdd ((hum.comp measurable_fst).pow_const 2) fun e => by
      rw [abs_pow]
      nlinarith [habs e.1, abs_nonneg (u e.1)]
  have hi3 : Integrable (fun e : X × Ω => u e.1 * u (step e.1 e.2)) (π.prod P) :=
    hbdd ((hum.comp measurable_fst).mul hus) fun e => by
      rw [abs_mul]
      nlinarith [habs e.1, abs_nonneg (u e.1), habs (step e.1 e.2), abs_nonneg (u (step e.1 e.2))]
  have e1 : ∫ e, u (step e.1 e.2) ^ 2 ∂(π.prod P) = ∫ x, u x ^ 2 ∂π := by
    have := integral_map (μ := π.prod P) (φ := fun e : X × Ω => step e.1 e.2) hm.aemeasurable (f := fun x => u x ^ 2)
      ((hum.pow_const 2).aestronglyMeasurable)
    rw [hinv] at this
    exact this.symm
  have e2 : ∫ e, u e.1 ^ 2 ∂(π.prod P) = ∫ x, u x ^ 2 ∂π := by
    rw [integral_prod _ hi2]
    simp
  have e3 : ∫ e, u e.1 * u (step e.1 e.2) ∂(π.prod P) = ∫ x, u x ^ 2 ∂π := by
    rw [integral_prod _ hi3]
    refine integral_congr_ae (ae_of_all _ fun x => ?_)
    show ∫ r, u x * u (step x r) ∂P = u x ^ 2
    rw [integral_const_mul, hustep, sq]
  have hzero : ∫ e, (u (step e.1 e.2) - u e.1) ^ 2 ∂(π.prod P) = 0 := by
    have : ∀ e : X × Ω, (u (step e.1 e.2) - u e.1) ^ 2 =
        u (step e.1 e.2) ^ 2 + u e.1 ^ 2 - 2 * (u e.1 * u (step e.1 e.2)) := fun e => by ring
    simp only [this]
    have e4 := integral_sub (hi1.add hi2) (hi3.const_mul 2)
    simp only [Pi.add_apply] at e4
    rw [e4, integral_add hi1 hi2, integral_const_mul, e1, e2, e3]
    ring
  have hi4 : Integrable (fun e : X × Ω => (u (step e.1 e.2) - u e.1) ^ 2) (π.prod P) :=
    hbdd ((hus.sub (hum.comp measurable_fst)).pow_const 2) fun e => by
      rw [abs_pow]
      have : |u (step e.1 e.2) - u e.1| ≤ 1 := abs_le.2
        ⟨by linarith [hu0 (step e.1 e.2), hu1 e.1], by linarith [hu1 (step e.1 e.2), hu0 e.1]⟩
      nlinarith [abs_nonneg (u (step e.1 e.2) - u e.1)]
  have := (integral_eq_zero_iff_of_nonneg (fun e => sq_nonneg _) hi4).1 hzero
  refine this.mono fun e he => ?_
  have : (u (step e.1 e.2) - u e.1) ^ 2 = 0 := he
  have := pow_eq_zero_iff (two_ne_zero) |>.1 this
  linarith

/-- A chain with a finite invariant law that can reach `B` in one step from almost everywhere visits `B` infinitely often, from almost
every starting point and with probability one. -/
theorem chain_recurrent {π : Measure X} [IsFiniteMeasure π] {P : Measure Ω} [IsProbabilityMeasure P] {step : X → Ω → X}
    (hm : Measurable fun e : X × Ω => step e.1 e.2) (hinv : (π.prod P).map (fun e => step e.1 e.2) = π) {B : Set X}
    (hB : MeasurableSet B) (hpos : ∀ᵐ x ∂π, P {ω | step x ω ∈ B} ≠ 0) :
    ∀ᵐ x ∂π, ∀ᵐ ω ∂(inputs P), ∃ᶠ k in atTop, chain (fun _ => step) x ω k ∈ B := by
  set T := advanceChain step with hT
  set E := {z : X × (Nat → Ω) | ∃ᶠ k in atTop, (T^[k] z).1 ∈ B} with hE
  have hEm : MeasurableSet E := measurable_often hm hB
  have hTE : ∀ z, T z ∈ E ↔ z ∈ E := by
    intro z
    rw [hE, Set.mem_setOf_eq, Set.mem_setOf_eq]
    have : ∀ k, T^[k] (T z) = T^[k + 1] z := fun k => (Function.iterate_succ_apply T k z).symm
    simp only [this]
    simp only [frequently_atTop]
    constructor
    · intro h n
      obtain ⟨k, hk, h1⟩ := h n
      exact ⟨k + 1, by omega, h1⟩
    · intro h n
      obtain ⟨k, hk, h1⟩ := h (n + 1)
      refine ⟨k - 1, by omega, ?_⟩
      rwa [show k - 1 + 1 = k by omega]
  -- the probability of visiting `B` infinitely often
  set h : X → ℝ≥0∞ := fun x => inputs P {ω | (x, ω) ∈ E} with hh
  have hhm : Measurable h := measurable_measure_prodMk_left hEm
  have hh1 : ∀ x, h x ≤ 1 := fun x => prob_le_one
  have hstep : ∀ x, h x = ∫⁻ r, h (step x r) ∂P := by
    intro x
    have hms : MeasurableSet {ω : Nat → Ω | (x, ω) ∈ E} := measurable_prodMk_left hEm
    have h0 : inputs P {ω : Nat → Ω | (x, ω) ∈ E} = (P.prod (inputs P)) (cons ⁻¹' {ω : Nat → Ω | (x, ω) ∈ E}) := by
      rw [← Measure.map_apply measurable_cons hms, inputs_cons P]
    refine h0.trans ((Measure.prod_apply (measurable_cons hms)).trans ?_)
    refine lintegral_congr fun r => ?_
    show inputs P _ = inputs P _
    congr 1
    ext ω
    show (x, cons (r, ω)) ∈ E ↔ (step x r, ω) ∈ E
    exact (hTE (x, cons (r, ω))).symm
  set u : X → ℝ := fun x => (h x).toReal with hu
  have hum : Measurable u := hhm.ennreal_toReal
  have hu0 : ∀ x, 0 ≤ u x := fun x => ENNReal.toReal_nonneg
  have hu1 : ∀ x, u x ≤ 1 := fun x => by
    have := ENNReal.toReal_mono ENNReal.one_ne_top (hh1 x)
    simpa using this
  have hustep : ∀ x, ∫ r, u (step x r) ∂P = u x := by
    intro x
    rw [hu]
    show ∫ r, (h (step x r)).toReal ∂P = (h x).toReal
    have hmx : Measurable fun r => h (step x r) := hhm.comp (hm.comp measurable_prodMk_left)
    rw [integral_toReal hmx.aemeasurable (ae_of_all _ fun r => (hh1 _).trans_lt ENNReal.one_lt_top), ← hstep x]
  have hconst : ∀ᵐ e ∂(π.prod P), u (step e.1 e.2) = u e.1 := harmonic_step hm hinv hum hu0 hu1 hustep
  -- on `B` the probability is one
  have hP := (advanceChain_preserving hm hinv).conservative
  have hPoin := hP.ae_mem_imp_frequently_image_mem (s := Prod.fst ⁻¹' B) (measurable_fst hB).nullMeasurableSet
  have hone : ∀ᵐ x ∂π, x ∈ B → u x = 1 := by
    refine (Measure.ae_ae_of_ae_prod hPoin).mono fun x hx hxB => ?_
    have : ∀ᵐ ω ∂(inputs P), (x, ω) ∈ E := hx.mono fun ω hω => hω hxB
    have h1 : h x = 1 := by
      show inputs P {ω | (x, ω) ∈ E} = 1
      exact (mem_ae_iff_prob_eq_one (measurable_prodMk_left hEm)).1 this
    rw [hu]
    show (h x).toReal = 1
    rw [h1]
    rfl
  have hone' : ∀ᵐ e ∂(π.prod P), step e.1 e.2 ∈ B → u (step e.1 e.2) = 1 := by
    have : ∀ᵐ x ∂((π.prod P).map fun e => step e.1 e.2), x ∈ B → u x = 1 := by rw [hinv]; exact hone
    exact ae_of_ae_map hm.aemeasurable this
  -- so it is one everywhere
  have hall : ∀ᵐ x ∂π, u x = 1 := by
    refine ((Measure.ae_ae_of_ae_prod hconst).and ((Measure.ae_ae_of_ae_prod hone').and hpos)).mono ?_
    rintro x ⟨h1, h2, h3⟩
    by_contra hne
    refine h3 ?_
    refine measure_mono_null (t := {r | ¬ (u (step x r) = u x ∧ (step x r ∈ B → u (step x r) = 1))}) ?_ (h1.and h2)
    intro r hr hc
    exact hne (hc.1.symm.trans (hc.2 hr))
  refine hall.mono fun x hx => ?_
  have h1 : h x = 1 := by
    have : (h x).toReal = 1 := hx
    rwa [ENNReal.toReal_eq_one_iff] at this
  have h2 : ∀ᵐ ω ∂(inputs P), (x, ω) ∈ E := by
    have : inputs P {ω | (x, ω) ∈ E} = 1 := h1
    exact (mem_ae_iff_prob_eq_one (measurable_prodMk_left hEm)).2 this
  refine h2.mono fun ω hω => ?_
  have : ∃ᶠ k in atTop, (T^[k] (x, ω)).1 ∈ B := hω
  simpa only [hT, advanceChain_iterate] using this

end Stochopy
