import Verif.Lemmas.Marginal
import Verif.Lemmas.Average

/-!
# Random walks on pairs of a point and the noise in its value, one block of coordinates at a time
-/

set_option linter.unusedSectionVars false

namespace Stochopy
open Spec MeasureTheory ProbabilityTheory Filter Topology Sampling
open scoped ENNReal

/-! ## Chains that repeat their transitions after `L` steps -/

section General
variable {E Ω : Type} [MeasurableSpace E] [MeasurableSpace Ω] {P : Measure Ω} [IsProbabilityMeasure P]

theorem chain_congr {X A : Type} {next next' : Nat → X → A → X} {x : X} {ω ω' : Nat → A} : ∀ {m : Nat}, (∀ k < m, next k = next' k) →
    (∀ k < m, ω k = ω' k) → chain next x ω m = chain next' x ω' m
  | 0, _, _ => rfl
  | m + 1, h, h' => by
    show next m (chain next x ω m) (ω m) = next' m (chain next' x ω' m) (ω' m)
    rw [h m (by omega), h' m (by omega), chain_congr (fun k hk => h k (by omega)) fun k hk => h' k (by omega)]

/-- `L` transitions as one. -/
def roundStep {X A : Type} (next : Nat → X → A → X) {L : Nat} (hL : 0 < L) (x : X) (ω : Fin L → A) : X :=
  chain next x (fun k => ω ⟨k % L, Nat.mod_lt _ hL⟩) L

theorem roundStep_flatten {X A : Type} (next : Nat → X → A → X) {L : Nat} (hL : 0 < L) (x : X) (ω : Nat → Fin L → A) :
    roundStep next hL x (ω 0) = chain next x (flatten hL ω) L := by
  unfold roundStep flatten
  refine chain_congr (fun _ _ => rfl) fun k hk => ?_
  simp only [Nat.div_eq_of_lt hk]

theorem chain_roundStep {next : Nat → E → Ω → E} {L : Nat} (hL : 0 < L) (hper : ∀ k j, next (k * L + j) = next j) (x : E)
    (ω : Nat → Fin L → Ω) : ∀ k, chain (fun _ => roundStep next hL) x ω k = chain next x (flatten hL ω) (k * L)
  | 0 => by rw [Nat.zero_mul]; rfl
  | k + 1 => by
    show roundStep next hL (chain (fun _ => roundStep next hL) x ω k) (ω k) = _
    rw [chain_roundStep hL hper x ω k, Nat.add_mul, one_mul, chain_add next x (flatten hL ω) (k * L) L]
    have h1 := roundStep_flatten next hL (chain next x (flatten hL ω) (k * L)) fun i => ω (k + i)
    rw [flatten_shift hL ω k] at h1
    rw [show (fun j => next (k * L + j)) = next from funext fun j => hper k j]
    exact h1

theorem measurable_roundStep {next : Nat → E → Ω → E} (hnm : ∀ k, Measurable fun e : E × Ω => next k e.1 e.2) {L : Nat} (hL : 0 < L) :
    Measurable fun e : E × (Fin L → Ω) => roundStep next hL e.1 e.2 := by
  have h1 : Measurable fun e : E × (Fin L → Ω) => (e.1, fun k : Nat => e.2 ⟨k % L, Nat.mod_lt _ hL⟩) :=
    measurable_fst.prodMk (measurable_pi_lambda _ fun k => (measurable_pi_apply _).comp measurable_snd)
  exact (measurable_chain hnm L).comp h1

/-- The law of large numbers for chains that repeat transitions which preserve a probability measure, when one round can lead
everywhere. -/
theorem periodic_average {π : Measure E} [IsProbabilityMeasure π] {next : Nat → E → Ω → E} {L : Nat} (hL : 0 < L)
    (hper : ∀ k j, next (k * L + j) = next j) (hnm : ∀ k, Measurable fun e : E × Ω => next k e.1 e.2)
    (hni : ∀ k, (π.prod P).map (fun e => next k e.1 e.2) = π)
    (hirr : ∀ B, MeasurableSet B → π B ≠ 0 → ∀ x, (inputs P) {ω | chain next x ω L ∈ B} ≠ 0) {h : E → ℝ} (hh : Measurable h)
    (hhi : Integrable h π) :
    ∀ᵐ x ∂π, ∀ᵐ ω ∂(inputs P), Tendsto (fun m : Nat => (∑ k ∈ Finset.range m, h (chain next x ω k)) / m) atTop
      (𝓝 (∫ x, h x ∂π)) := by
  have hmr := measurable_roundStep hnm hL
  have hev := measurePreserving_eval_infinitePi (fun _ : Nat => Measure.pi fun _ : Fin L => P) 0
  have hfl : MeasurePreserving (Prod.map id (flatten hL)) (π.prod (inputs (Measure.pi fun _ : Fin L => P))) (π.prod (inputs P)) := by
    refine ⟨measurable_id.prodMap (measurable_flatten hL), ?_⟩
    rw [← Measure.map_prod_map _ _ measurable_id (measurable_flatten hL), inputs_flatten P hL, Measure.map_id]
  have hpres : ∀ i, MeasurePreserving (fun z : E × (Nat → Fin L → Ω) => chain next z.1 (flatten hL z.2) i)
      (π.prod (inputs (Measure.pi fun _ : Fin L => P))) π := fun i =>
    (MeasurePreserving.mk (measurable_chain hnm i) (chain_law i hnm hni)).comp hfl
  have hinv : (π.prod (Measure.pi fun _ : Fin L => P)).map (fun e => roundStep next hL e.1 e.2) = π := by
    have h1 : MeasurePreserving (fun z : E × (Nat → Fin L → Ω) => (z.1, z.2 0)) (π.prod (inputs (Measure.pi fun _ : Fin L => P)))
        (π.prod (Measure.pi fun _ : Fin L => P)) := (MeasurePreserving.id π).prod hev
    rw [← h1.map_eq, Measure.map_map hmr h1.measurable]
    have h2 := (hpres L).map_eq
    refine Eq.trans ?_ h2
    congr 1
    funext z
    exact roundStep_flatten next hL z.1 z.2
  have hirr' : ∀ B, MeasurableSet B → π B ≠ 0 → ∀ᵐ x ∂π, (Measure.pi fun _ : Fin L => P) {ω | roundStep next hL x ω ∈ B} ≠ 0 := by
    intro B hB hB0
    refine ae_of_all _ fun x => ?_
    have hs : MeasurableSet {ω : Fin L → Ω | roundStep next hL x ω ∈ B} := (hmr.comp measurable_prodMk_left) hB
    have hs' : MeasurableSet {ω : Nat → Ω | chain next x ω L ∈ B} := ((measurable_chain hnm L).comp measurable_prodMk_left) hB
    have h1 := hirr B hB hB0 x
    rw [← inputs_flatten P hL, Measure.map_apply (measurable_flatten hL) hs'] at h1
    rw [← hev.measure_preimage hs.nullMeasurableSet]
    refine ne_of_eq_of_ne ?_ h1
    refine congrArg _ (Set.ext fun ω => ?_)
    show roundStep next hL x (ω 0) ∈ B ↔ chain next x (flatten hL ω) L ∈ B
    rw [roundStep_flatten]
  have hper' : ∀ k, (fun j => next (k * L + j)) = next := fun k => funext fun j => hper k j
  have key : ∀ {v : E → ℝ}, Measurable v → Integrable v π →
      ∀ᵐ x ∂π, ∀ᵐ ω ∂(inputs P), Tendsto (fun N : Nat => (∑ j ∈ Finset.range (N * L), v (chain next x ω j)) / N) atTop
        (𝓝 (L * ∫ x, v x ∂π)) := by
    intro v hv hvi
    set F : E × (Nat → Fin L → Ω) → ℝ := fun z => ∑ i ∈ Finset.range L, v (chain next z.1 (flatten hL z.2) i) with hF
    have hFm : Measurable F := Finset.measurable_sum _ fun i _ => hv.comp (hpres i).measurable
    have hFi1 : ∀ i, Integrable (fun z : E × (Nat → Fin L → Ω) => v (chain next z.1 (flatten hL z.2) i))
        (π.prod (inputs (Measure.pi fun _ : Fin L => P))) := fun i => (hpres i).integrable_comp_of_integrable hvi
    have hFi : Integrable F (π.prod (inputs (Measure.pi fun _ : Fin L => P))) := integrable_finset_sum _ fun i _ => hFi1 i
    have hint : ∫ z, F z ∂(π.prod (inputs (Measure.pi fun _ : Fin L => P))) = L * ∫ x, v x ∂π := by
      rw [hF, integral_finset_sum _ fun i _ => hFi1 i]
      have : ∀ i ∈ Finset.range L, ∫ z : E × (Nat → Fin L → Ω), v (chain next z.1 (flatten hL z.2) i)
          ∂(π.prod (inputs (Measure.pi fun _ : Fin L => P))) = ∫ x, v x ∂π := by
        intro i _
        have h1 := integral_map (hpres i).measurable.aemeasurable (f := v) (by rw [(hpres i).map_eq]; exact hv.aestronglyMeasurable)
        rw [(hpres i).map_eq] at h1
        exact h1.symm
      rw [Finset.sum_congr rfl this, Finset.sum_const, Finset.card_range, nsmul_eq_mul]
    have h1 := chain_average hmr hinv hirr' hFm hFi
    rw [hint] at h1
    refine (Measure.ae_ae_of_ae_prod h1).mono fun x hx => ?_
    rw [← inputs_regroup P hL] at hx
    have hmg : Measurable fun (ω : Nat → Ω) (k : Nat) (j : Fin L) => ω (k * L + j) :=
      measurable_pi_lambda _ fun k => measurable_pi_lambda _ fun j => measurable_pi_apply _
    refine (ae_of_ae_map hmg.aemeasurable hx).mono fun ω hω => ?_
    refine hω.congr fun N => ?_
    congr 1
    rw [← sum_rounds]
    refine Finset.sum_congr rfl fun k _ => Finset.sum_congr rfl fun i _ => ?_
    rw [advanceChain_iterate]
    show v (chain next (chain (fun _ => roundStep next hL) x _ k) (flatten hL fun i => _) i) = _
    rw [flatten_shift hL (fun k (j : Fin L) => ω (k * L + j)) k, chain_roundStep hL hper, flatten_regroup,
      chain_add next x ω (k * L) i, hper']
  filter_upwards [key hh hhi, key (v := fun x => |h x|) (measurable_norm.comp hh) hhi.abs] with x hx1 hx2
  filter_upwards [hx1, hx2] with ω hω1 hω2
  exact average_rounds hL hω1 hω2

/-- The same for transitions in detailed balance with a density of finite integral. -/
theorem periodic_balance_average {base : Measure E} [SFinite base] {w : E → ℝ} {next : Nat → E → Ω → E} {L : Nat} (hL : 0 < L)
    (hper : ∀ k j, next (k * L + j) = next j) (hnm : ∀ k, Measurable fun e : E × Ω => next k e.1 e.2)
    (hw : Measurable w) (hw0 : ∀ x, 0 < w x) (hfin : ∫⁻ x, ENNReal.ofReal (w x) ∂base ≠ ∞) (hbase : base ≠ 0)
    (hb : ∀ k, ∀ A B : Set E, MeasurableSet A → MeasurableSet B →
      ∫⁻ x in A, ENNReal.ofReal (w x) * P {ω | next k x ω ∈ B} ∂base = ∫⁻ x in B, ENNReal.ofReal (w x) * P {ω | next k x ω ∈ A} ∂base)
    (hirr : ∀ B, MeasurableSet B → base B ≠ 0 → ∀ x, (inputs P) {ω | chain next x ω L ∈ B} ≠ 0)
    {h : E → ℝ} (hh : Measurable h) (hhi : Integrable (fun x => h x * w x) base) :
    ∀ᵐ x ∂base, ∀ᵐ ω ∂(inputs P), Tendsto (fun m : Nat => (∑ k ∈ Finset.range m, h (chain next x ω k)) / m) atTop
      (𝓝 ((∫ x, h x * w x ∂base) / ∫ x, w x ∂base)) := by
  have hd : Measurable fun x => ENNReal.ofReal (w x) := ENNReal.measurable_ofReal.comp hw
  set τ : Measure E := base.withDensity fun x => ENNReal.ofReal (w x) with hτ
  have hsf : SFinite τ := by rw [hτ]; infer_instance
  have hu : τ Set.univ = ∫⁻ x, ENNReal.ofReal (w x) ∂base := by
    rw [hτ, withDensity_apply _ MeasurableSet.univ, Measure.restrict_univ]
  have htop : τ Set.univ ≠ ∞ := by rw [hu]; exact hfin
  have hac : τ ≪ base := withDensity_absolutelyContinuous _ _
  have hca : base ≪ τ := withDensity_absolutelyContinuous' hd.aemeasurable
    (ae_of_all _ fun x => (ENNReal.ofReal_pos.2 (hw0 x)).ne')
  have hzero : τ Set.univ ≠ 0 := fun h0 => hbase (Measure.measure_univ_eq_zero.1 (hca h0))
  set π : Measure E := (τ Set.univ)⁻¹ • τ with hπ
  have hprob : IsProbabilityMeasure π := ⟨by
    rw [hπ, Measure.smul_apply, smul_eq_mul, ENNReal.inv_mul_cancel hzero htop]⟩
  have hπac : π ≪ base := Measure.AbsolutelyContinuous.smul_left hac _
  have hacπ : base ≪ π := by
    intro N hN
    rw [hπ, Measure.smul_apply, smul_eq_mul, mul_eq_zero] at hN
    exact hca (hN.resolve_left (ENNReal.inv_ne_zero.2 htop))
  have hinvτ : ∀ k, (τ.prod P).map (fun e => next k e.1 e.2) = τ := by
    intro k
    refine Measure.ext fun C hC => ?_
    rw [Measure.map_apply (hnm k) hC, Measure.prod_apply ((hnm k) hC)]
    have h1 := hb k Set.univ C MeasurableSet.univ hC
    rw [Measure.restrict_univ] at h1
    have h2 : Measurable fun x => P {ω | next k x ω ∈ C} := measurable_measure_prodMk_left ((hnm k) hC)
    show ∫⁻ x, P {ω | next k x ω ∈ C} ∂τ = _
    rw [hτ, lintegral_withDensity_eq_lintegral_mul _ hd h2, withDensity_apply _ hC]
    refine Eq.trans h1 ?_
    refine lintegral_congr fun x => ?_
    rw [show {ω | next k x ω ∈ Set.univ} = Set.univ from rfl, measure_univ, mul_one]
  have hinv : ∀ k, (π.prod P).map (fun e => next k e.1 e.2) = π := fun k => by
    rw [hπ, Measure.prod_smul_left, Measure.map_smul, hinvτ k]
  have hiπ : Integrable h π := by
    refine Integrable.smul_measure ?_ (ENNReal.inv_ne_top.2 hzero)
    rw [hτ, integrable_withDensity_iff hd (ae_of_all _ fun x => ENNReal.ofReal_lt_top)]
    refine hhi.congr (ae_of_all _ fun x => ?_)
    show h x * w x = h x * (ENNReal.ofReal (w x)).toReal
    rw [ENNReal.toReal_ofReal (hw0 x).le]
  have hmean : ∫ x, h x ∂π = (∫ x, h x * w x ∂base) / ∫ x, w x ∂base := by
    rw [hπ, integral_smul_measure, smul_eq_mul, ENNReal.toReal_inv]
    have h1 : (τ Set.univ).toReal = ∫ x, w x ∂base := by
      rw [hu, integral_eq_lintegral_of_nonneg_ae (ae_of_all _ fun x => (hw0 x).le) hw.aestronglyMeasurable]
    have h2 : ∫ x, h x ∂τ = ∫ x, h x * w x ∂base := by
      rw [hτ, integral_withDensity_eq_integral_toReal_smul hd (ae_of_all _ fun x => ENNReal.ofReal_lt_top)]
      refine integral_congr_ae (ae_of_all _ fun x => ?_)
      show (ENNReal.ofReal (w x)).toReal • h x = h x * w x
      rw [ENNReal.toReal_ofReal (hw0 x).le, smul_eq_mul, mul_comm]
    rw [h1, h2, div_eq_inv_mul]
  have h1 := periodic_average hL hper hnm hinv (fun B hB hB0 x => hirr B hB (fun h0 => hB0 (hπac h0)) x) hh hiπ
  rw [hmean] at h1
  exact hacπ h1

end General

/-! ## Points with noise -/

section Noise
variable {n : Nat} {Ξ : Type} [MeasurableSpace Ξ] {ν : Measure Ξ} [IsProbabilityMeasure ν] {F : Ξ → Vec ℝ n → ℝ}

/-- The transition on block `b` with `per` normal numbers, one for each coordinate of the block. -/
noncomputable def noisyBlockStep (F : Ξ → Vec ℝ n → ℝ) (scale : Vec ℝ n) {per : Nat} (hper : 0 < per) (b : Nat) (e : Ξ × Vec ℝ n)
    (ω : (Ξ × Vec ℝ per) × ℝ) : Ξ × Vec ℝ n :=
  noisyStep F scale per b e ((ω.1.1, fun c => ω.1.2 ⟨c.val % per, Nat.mod_lt _ hper⟩), ω.2)

theorem measurable_noisyBlockStep (hF : Measurable fun e : Ξ × Vec ℝ n => F e.1 e.2) (scale : Vec ℝ n) {per : Nat} (hper : 0 < per)
    (b : Nat) : Measurable fun e : (Ξ × Vec ℝ n) × ((Ξ × Vec ℝ per) × ℝ) => noisyBlockStep F scale hper b e.1 e.2 := by
  refine (measurable_noisyStep hF scale per b).comp (measurable_fst.prodMk (Measurable.prodMk (Measurable.prodMk ?_ ?_) ?_))
  · exact measurable_fst.comp (measurable_fst.comp measurable_snd)
  · exact measurable_pi_lambda _ fun c => (measurable_pi_apply _).comp (measurable_snd.comp (measurable_fst.comp measurable_snd))
  · exact measurable_snd.comp measurable_snd

/-- Only the coordinates of the block matter. -/
theorem noisyBlockStep_law (hF : Measurable fun e : Ξ × Vec ℝ n => F e.1 e.2) (scale : Vec ℝ n) {per : Nat} (hper : 0 < per) (b : Nat)
    (e : Ξ × Vec ℝ n) {A : Set (Ξ × Vec ℝ n)} (hA : MeasurableSet A) :
    ((ν.prod (gauss per)).prod unifLaw) {ω | noisyBlockStep F scale hper b e ω ∈ A} =
      ((ν.prod (gauss n)).prod unifLaw) {ω | noisyStep F scale per b e ω ∈ A} := by
  let S := {c : Fin n // c.val / per = b}
  let ext : (S → ℝ) → Vec ℝ n := fun v c => if h : c.val / per = b then v ⟨c, h⟩ else 0
  have hext : Measurable ext := by
    refine measurable_pi_lambda _ fun c => ?_
    by_cases h : c.val / per = b
    · simp only [ext, dif_pos h]; exact measurable_pi_apply _
    · simp only [ext, dif_neg h]; exact measurable_const
  have hmove : ∀ z : Vec ℝ n, blockMove scale per b e.2 (ext fun c => z c.1) = blockMove scale per b e.2 z := by
    intro z
    funext c
    unfold blockMove
    by_cases h : c.val / per = b
    · simp only [ext, if_pos h, dif_pos h]
    · simp only [if_neg h]
  have hstep : ∀ (ξ : Ξ) (z : Vec ℝ n) (u : ℝ),
      noisyStep F scale per b e ((ξ, ext fun c => z c.1), u) = noisyStep F scale per b e ((ξ, z), u) := by
    intro ξ z u
    rw [noisyStep_eq, noisyStep_eq]
    simp only [hmove]
  let C : Set ((Ξ × (S → ℝ)) × ℝ) := {v | noisyStep F scale per b e ((v.1.1, ext v.1.2), v.2) ∈ A}
  have hC : MeasurableSet C := by
    have : Measurable fun v : (Ξ × (S → ℝ)) × ℝ => noisyStep F scale per b e ((v.1.1, ext v.1.2), v.2) :=
      (measurable_noisyStep hF scale per b).comp (measurable_const.prodMk
        (((measurable_fst.comp measurable_fst).prodMk (hext.comp (measurable_snd.comp measurable_fst))).prodMk measurable_snd))
    exact this hA
  have hlaw : ∀ {m : Nat} (g : S → Fin m), Function.Injective g →
      ((ν.prod (gauss m)).prod unifLaw) {ω | ((ω.1.1, fun c => ω.1.2 (g c)), ω.2) ∈ C} =
        ((ν.prod (Measure.pi fun _ : S => gaussianReal 0 1)).prod unifLaw) C := by
    intro m g hg
    have h1 := Measure.map_infinitePi_infinitePi_of_inj (P := fun _ : Fin m => gaussianReal 0 1) hg
    rw [Measure.infinitePi_eq_pi, Measure.infinitePi_eq_pi] at h1
    have hmg : Measurable fun (z : Vec ℝ m) (c : S) => z (g c) := measurable_pi_lambda _ fun c => measurable_pi_apply _
    have h2 : MeasurePreserving (fun (z : Vec ℝ m) (c : S) => z (g c)) (gauss m) (Measure.pi fun _ : S => gaussianReal 0 1) := ⟨hmg, h1⟩
    have h3 := ((MeasurePreserving.id ν).prod h2).prod (MeasurePreserving.id unifLaw)
    exact h3.measure_preimage hC.nullMeasurableSet
  have e1 := hlaw (m := n) (fun c => c.1) Subtype.val_injective
  have e2 := hlaw (m := per) (fun c => ⟨c.1.val % per, Nat.mod_lt _ hper⟩) (by
    rintro ⟨c, hc⟩ ⟨c', hc'⟩ h
    have h' : c.val % per = c'.val % per := congrArg Fin.val h
    refine Subtype.ext (Fin.ext ?_)
    show c.val = c'.val
    rw [← Nat.mod_add_div c.val per, ← Nat.mod_add_div c'.val per, h', hc, hc'])
  have s1 : {ω : (Ξ × Vec ℝ n) × ℝ | ((ω.1.1, fun c : S => ω.1.2 c.1), ω.2) ∈ C} = {ω | noisyStep F scale per b e ω ∈ A} := by
    refine Set.ext fun ω => iff_of_eq (congrArg (· ∈ A) (hstep ω.1.1 ω.1.2 ω.2))
  have s2 : {ω : (Ξ × Vec ℝ per) × ℝ | ((ω.1.1, fun c : S => ω.1.2 ⟨c.1.val % per, Nat.mod_lt _ hper⟩), ω.2) ∈ C} =
      {ω | noisyBlockStep F scale hper b e ω ∈ A} := by
    refine Set.ext fun ω => iff_of_eq (congrArg (· ∈ A) (hstep ω.1.1 (fun c => ω.1.2 ⟨c.val % per, Nat.mod_lt _ hper⟩) ω.2))
  rw [s1] at e1
  rw [s2] at e2
  rw [e1, e2]

theorem noisyBlockStep_balance (hF : Measurable fun e : Ξ × Vec ℝ n => F e.1 e.2) (scale : Vec ℝ n) {per : Nat} (hper : 0 < per)
    (b : Nat) (A B : Set (Ξ × Vec ℝ n)) (hA : MeasurableSet A) (hB : MeasurableSet B) :
    ∫⁻ e in A, ENNReal.ofReal (Real.exp (-F e.1 e.2)) * ((ν.prod (gauss per)).prod unifLaw) {ω | noisyBlockStep F scale hper b e ω ∈ B}
      ∂(ν.prod volume) =
    ∫⁻ e in B, ENNReal.ofReal (Real.exp (-F e.1 e.2)) * ((ν.prod (gauss per)).prod unifLaw) {ω | noisyBlockStep F scale hper b e ω ∈ A}
      ∂(ν.prod volume) := by
  have := noisyStep_balance (ν := ν) hF scale per b A B hA hB
  simpa only [noisyBlockStep_law hF scale hper b _ hA, noisyBlockStep_law hF scale hper b _ hB] using this

theorem noisyBlockStep_avoid (hF : Measurable fun e : Ξ × Vec ℝ n => F e.1 e.2) {scale : Vec ℝ n} {per : Nat} (hper : 0 < per) {b : Nat}
    {e : Ξ × Vec ℝ n} {A : Set (Ξ × Vec ℝ n)} (hA : MeasurableSet A)
    (h : ∀ᵐ ω ∂((ν.prod (gauss per)).prod unifLaw), noisyBlockStep F scale hper b e ω ∉ A) :
    ∀ᵐ z ∂(ν.prod (gauss n)), (z.1, blockMove scale per b e.2 z.2) ∉ A := by
  refine noisyStep_avoid (F := F) (p := fun y => y ∉ A) (measure_eq_zero_iff_ae_notMem.1 ?_)
  have h1 := noisyBlockStep_law (ν := ν) hF scale hper b e hA
  exact h1.symm.trans (measure_eq_zero_iff_ae_notMem.2 h)

/-- The transitions of 'mcmc' on pairs, with `per` normal numbers, one uniform number and fresh noise per iteration. -/
noncomputable def noisyNext (F : Ξ → Vec ℝ n → ℝ) (scale : Vec ℝ n) {per : Nat} (hper : 0 < per) (k : Nat) :
    Ξ × Vec ℝ n → (Ξ × Vec ℝ per) × ℝ → Ξ × Vec ℝ n :=
  noisyBlockStep F scale hper (k % blockCount n per)

/-- If the moves of consecutive blocks avoid `B` almost surely, so does the proposal that moves all of them at once. -/
theorem noisy_sweep_avoid (hF : Measurable fun e : Ξ × Vec ℝ n => F e.1 e.2) (scale : Vec ℝ n) {per : Nat} (hper : 0 < per)
    {B : Set (Ξ × Vec ℝ n)} (hB : MeasurableSet B) : ∀ (m j : Nat) (e : Ξ × Vec ℝ n),
      (∀ᵐ ω ∂(inputs ((ν.prod (gauss per)).prod unifLaw)), chain (fun k => noisyBlockStep F scale hper (j + k)) e ω (m + 1) ∉ B) →
      ∀ᵐ z ∂(ν.prod (gauss n)), (z.1, blocksMove scale per (List.range' j (m + 1)) e.2 z.2) ∉ B
  | 0, j, e, h => by
    have hev := measurePreserving_eval_infinitePi (fun _ : Nat => (ν.prod (gauss per)).prod unifLaw) 0
    have hmb : Measurable fun ω : (Ξ × Vec ℝ per) × ℝ => noisyBlockStep F scale hper j e ω :=
      (measurable_noisyBlockStep hF scale hper j).comp measurable_prodMk_left
    have h1 : ∀ᵐ ω ∂((ν.prod (gauss per)).prod unifLaw), noisyBlockStep F scale hper j e ω ∉ B := by
      rw [← hev.map_eq]
      exact (ae_map_iff hev.measurable.aemeasurable (hmb hB.compl)).2 h
    refine (noisyBlockStep_avoid hF hper hB h1).mono fun z hz => ?_
    have : blocksMove scale per (List.range' j (0 + 1)) e.2 z.2 = blockMove scale per j e.2 z.2 := by
      funext c
      unfold blocksMove blockMove
      simp
    rw [this]
    exact hz
  | m + 1, j, e, h => by
    have hmn : ∀ j k : Nat, Measurable fun e : (Ξ × Vec ℝ n) × ((Ξ × Vec ℝ per) × ℝ) => noisyBlockStep F scale hper (j + k) e.1 e.2 :=
      fun j k => measurable_noisyBlockStep hF scale hper (j + k)
    have hmc := measurable_chain (hmn (j + 1)) (m + 1)
    -- the states from which the rest of the sweep reaches `B`
    let A : Set (Ξ × Vec ℝ n) := {y | (inputs ((ν.prod (gauss per)).prod unifLaw))
      {ω | chain (fun k => noisyBlockStep F scale hper (j + 1 + k)) y ω (m + 1) ∈ B} ≠ 0}
    have hA : MeasurableSet A := by
      have h1 : Measurable fun y => (inputs ((ν.prod (gauss per)).prod unifLaw))
          {ω | chain (fun k => noisyBlockStep F scale hper (j + 1 + k)) y ω (m + 1) ∈ B} := measurable_measure_prodMk_left (hmc hB)
      exact (h1 (measurableSet_singleton 0)).compl
    have h1 : ∀ᵐ ω ∂((ν.prod (gauss per)).prod unifLaw), noisyBlockStep F scale hper j e ω ∉ A := by
      rw [← inputs_cons] at h
      have h2 := Measure.ae_ae_of_ae_prod (ae_of_ae_map measurable_cons.aemeasurable h)
      refine h2.mono fun ω0 hω0 => ?_
      show ¬ ¬ _
      rw [not_not]
      refine measure_eq_zero_iff_ae_notMem.2 (hω0.mono fun ω hω => ?_)
      rw [Nat.add_comm (m + 1) 1, chain_add _ _ _ 1 (m + 1)] at hω
      have he : (fun k => noisyBlockStep F scale hper (j + 1 + k)) = fun k => noisyBlockStep F scale hper (j + (1 + k)) :=
        funext fun k => by rw [Nat.add_assoc]
      have hc : (fun k => cons (ω0, ω) (1 + k)) = ω := funext fun k => by rw [Nat.add_comm]; rfl
      rw [hc] at hω
      show chain _ _ _ _ ∉ B
      rw [he]
      exact hω
    have h2 := noisyBlockStep_avoid hF hper hA h1
    have hnot : j ∉ List.range' (j + 1) (m + 1) := by
      simp [List.mem_range']
      omega
    have h3 : ∀ᵐ z ∂(gauss n), ∀ᵐ z' ∂(ν.prod (gauss n)),
        (z'.1, blocksMove scale per (List.range' j (m + 1 + 1)) e.2 (mix (fun c => c.val / per = j) z z'.2)) ∉ B := by
      have h4 : ∀ᵐ z ∂(ν.prod (gauss n)), ∀ᵐ z' ∂(ν.prod (gauss n)),
          (z'.1, blocksMove scale per (List.range' j (m + 1 + 1)) e.2 (mix (fun c => c.val / per = j) z.2 z'.2)) ∉ B := by
        refine h2.mono fun z hz => ?_
        have hz0 : (inputs ((ν.prod (gauss per)).prod unifLaw))
            {ω | chain (fun k => noisyBlockStep F scale hper (j + 1 + k)) (z.1, blockMove scale per j e.2 z.2) ω (m + 1) ∈ B} = 0 :=
          not_not.1 hz
        refine (noisy_sweep_avoid hF scale hper hB m (j + 1) _ (measure_eq_zero_iff_ae_notMem.1 hz0)).mono fun z' hz' => ?_
        rw [blocksMove_cons scale per hnot] at hz'
        exact hz'
      obtain ⟨ξ, hξ⟩ := (Measure.ae_ae_of_ae_prod h4).exists
      exact hξ
    have hmp := gauss_mix (n := n) fun c => c.val / per = j
    have hpre : MeasurableSet {z : Ξ × Vec ℝ n | (z.1, blocksMove scale per (List.range' j (m + 1 + 1)) e.2 z.2) ∉ B} :=
      (measurable_fst.prodMk ((measurable_blocksMove scale per _ e.2).comp measurable_snd)) hB.compl
    have hbig : MeasurePreserving (fun p : Vec ℝ n × (Ξ × Vec ℝ n) => (p.2.1, mix (fun c => c.val / per = j) p.1 p.2.2))
        ((gauss n).prod (ν.prod (gauss n))) (ν.prod (gauss n)) := by
      have e1 := (measurePreserving_prodAssoc (gauss n) ν (gauss n)).symm
      have e2 := (Measure.measurePreserving_swap (μ := gauss n) (ν := ν)).prod (MeasurePreserving.id (gauss n))
      have e3 := measurePreserving_prodAssoc ν (gauss n) (gauss n)
      exact ((MeasurePreserving.id ν).prod hmp).comp (e3.comp (e2.comp e1))
    rw [← hbig.map_eq]
    exact (ae_map_iff hbig.measurable.aemeasurable hpre).2 ((Measure.ae_prod_iff_ae_ae (hbig.measurable hpre)).2 h3)

/-- One round over all blocks can lead everywhere. -/
theorem noisy_sweep_reach (hF : Measurable fun e : Ξ × Vec ℝ n => F e.1 e.2) {scale : Vec ℝ n} (hs : ∀ c, scale c ≠ 0) {per : Nat}
    (hper : 0 < per) (hn : 0 < n) {B : Set (Ξ × Vec ℝ n)} (hB : MeasurableSet B) (hv : (ν.prod volume) B ≠ 0) (e : Ξ × Vec ℝ n) :
    (inputs ((ν.prod (gauss per)).prod unifLaw)) {ω | chain (noisyNext F scale hper) e ω (blockCount n per) ∈ B} ≠ 0 := by
  have hbc : 0 < blockCount n per := by
    unfold blockCount
    exact Nat.div_pos (by omega) hper
  obtain ⟨m, hm⟩ : ∃ m, blockCount n per = m + 1 := ⟨blockCount n per - 1, by omega⟩
  intro h0
  apply hv
  have h1 : ∀ᵐ ω ∂(inputs ((ν.prod (gauss per)).prod unifLaw)),
      chain (fun k => noisyBlockStep F scale hper (0 + k)) e ω (m + 1) ∉ B := by
    refine (measure_eq_zero_iff_ae_notMem.1 h0).mono fun ω hω hmem => hω ?_
    show chain (noisyNext F scale hper) e ω (blockCount n per) ∈ B
    rw [hm]
    rw [chain_congr (next' := fun k => noisyBlockStep F scale hper (0 + k)) (ω' := ω) (fun k hk => ?_) fun _ _ => rfl]
    · exact hmem
    · unfold noisyNext
      rw [Nat.zero_add, Nat.mod_eq_of_lt (by omega)]
  have h2 := noisy_sweep_avoid hF scale hper hB m 0 e h1
  have h3 := Measure.ae_ae_of_ae_prod h2
  rw [Measure.measure_prod_null hB]
  refine h3.mono fun ξ hξ => ?_
  by_contra hc
  have hsl : MeasurableSet {x : Vec ℝ n | (ξ, x) ∈ B} := measurable_prodMk_left hB
  have hdet : (Matrix.diagonal scale).det ≠ 0 := by
    rw [Matrix.det_diagonal]
    exact Finset.prod_ne_zero_iff.2 fun c _ => hs c
  have h4 : gauss n {z | (fun j => e.2 j + (Matrix.diagonal scale).mulVec z j) ∈ {x : Vec ℝ n | (ξ, x) ∈ B}} ≠ 0 :=
    gauss_affine_pos hdet e.2 hsl hc
  refine h4 (measure_mono_null ?_ (ae_iff.1 hξ))
  intro z hz
  have hz' : (ξ, fun j => e.2 j + (Matrix.diagonal scale).mulVec z j) ∈ B := hz
  have hall : ∀ c : Fin n, c.val / per ∈ List.range' 0 (m + 1) := by
    intro c
    rw [← List.range_eq_range', List.mem_range, ← hm]
    unfold blockCount
    rw [Nat.div_lt_iff_lt_mul hper]
    have h5 := Nat.div_add_mod (n + per - 1) per
    have h6 := Nat.mod_lt (n + per - 1) hper
    have h7 := c.isLt
    rw [Nat.mul_comm] at h5
    omega
  have hz'' : (ξ, blocksMove scale per (List.range' 0 (m + 1)) e.2 z) ∈ B := by
    have : blocksMove scale per (List.range' 0 (m + 1)) e.2 z = fun j => e.2 j + (Matrix.diagonal scale).mulVec z j := by
      funext j
      unfold blocksMove
      rw [if_pos (hall j), Matrix.mulVec_diagonal, mul_comm]
    rw [this]
    exact hz'
  exact not_not.2 hz''

theorem noisyNext_periodic (F : Ξ → Vec ℝ n → ℝ) (scale : Vec ℝ n) {per : Nat} (hper : 0 < per) (k j : Nat) :
    noisyNext F scale hper (k * blockCount n per + j) = noisyNext F scale hper j := by
  unfold noisyNext
  rw [Nat.add_comm, Nat.add_mul_mod_self_right]

/-- The averages over the points, for blocks of any size. -/
theorem noisy_blocks_average (hn : 0 < n) (hF : Measurable fun e : Ξ × Vec ℝ n => F e.1 e.2)
    (hint : ∫⁻ x, ∫⁻ ξ, ENNReal.ofReal (Real.exp (-F ξ x)) ∂ν ≠ ∞) {scale : Vec ℝ n} (hs : ∀ c, scale c ≠ 0) {per : Nat}
    (hper : 0 < per) {h : Vec ℝ n → ℝ} (hh : Measurable h) (hhi : Integrable fun x => h x * meanWeight ν F x) :
    ∀ᵐ e ∂(ν.prod volume), ∀ᵐ ω ∂(inputs ((ν.prod (gauss per)).prod unifLaw)),
      Tendsto (fun m : Nat => (∑ k ∈ Finset.range m, h (chain (noisyNext F scale hper) e ω k).2) / m) atTop
        (𝓝 (mean (meanWeight ν F) h)) := by
  obtain ⟨hint', hhw, hlim⟩ := noisy_density hF hint hh hhi
  have hw : Measurable fun e : Ξ × Vec ℝ n => Real.exp (-F e.1 e.2) := Real.measurable_exp.comp hF.neg
  have hbase : (ν.prod (volume : Measure (Vec ℝ n))) ≠ 0 := by
    intro h0
    have h1 := congrArg (fun μ => μ Set.univ) h0
    simp only [← Set.univ_prod_univ, Measure.prod_prod, measure_univ, one_mul, Measure.coe_zero, Pi.zero_apply] at h1
    exact NeZero.ne (volume : Measure (Vec ℝ n)) (Measure.measure_univ_eq_zero.1 h1)
  have hbc : 0 < blockCount n per := by
    unfold blockCount
    exact Nat.div_pos (by omega) hper
  have h1 := periodic_balance_average (P := (ν.prod (gauss per)).prod unifLaw) hbc (noisyNext_periodic F scale hper)
    (fun k => measurable_noisyBlockStep hF scale hper _) hw (fun e => Real.exp_pos _) hint' hbase
    (fun k => noisyBlockStep_balance (ν := ν) hF scale hper _) (fun B hB hv e => noisy_sweep_reach hF hs hper hn hB hv e)
    (hh.comp measurable_snd) hhw
  rw [← hlim]
  exact h1

end Noise

end Stochopy
