import Verif.Spec.Average
import Verif.Lemmas.Ergodic
import Verif.Lemmas.RecurWalk

/-!
# The law of large numbers for chains that repeat a list of transitions
-/

namespace Stochopy
open Spec MeasureTheory Filter Topology
open scoped ENNReal

/-! ## Sequences -/

/-- Averages over whole rounds determine the averages. -/
theorem average_rounds {a : Nat → ℝ} {L : Nat} (hL : 0 < L) {c C : ℝ}
    (h1 : Tendsto (fun N : Nat => (∑ j ∈ Finset.range (N * L), a j) / N) atTop (𝓝 (L * c)))
    (h2 : Tendsto (fun N : Nat => (∑ j ∈ Finset.range (N * L), |a j|) / N) atTop (𝓝 C)) :
    Tendsto (fun m : Nat => (∑ j ∈ Finset.range m, a j) / m) atTop (𝓝 c) := by
  have hL' : (0 : ℝ) < L := by exact_mod_cast hL
  set B : Nat → ℝ := fun N => ∑ j ∈ Finset.range (N * L), |a j| with hB
  have hN : Tendsto (fun m : Nat => m / L) atTop atTop := Nat.tendsto_div_const_atTop hL.ne'
  have hrat : Tendsto (fun m : Nat => ((m / L : Nat) : ℝ) / m) atTop (𝓝 (1 / L)) := by
    have h0 : Tendsto (fun m : Nat => (1 : ℝ) / L - 1 / m) atTop (𝓝 (1 / L - 0)) :=
      tendsto_const_nhds.sub tendsto_one_div_atTop_nhds_zero_nat
    rw [sub_zero] at h0
    refine tendsto_of_tendsto_of_tendsto_of_le_of_le' h0 tendsto_const_nhds ?_ ?_
    · filter_upwards [eventually_gt_atTop 0] with m hm
      have hm' : (0 : ℝ) < m := by exact_mod_cast hm
      have h3 : (m : ℝ) ≤ ((m / L : Nat) : ℝ) * L + L := by
        have := Nat.div_add_mod m L
        have h4 := Nat.mod_lt m hL
        have : m ≤ m / L * L + L := by rw [Nat.mul_comm]; omega
        exact_mod_cast this
      rw [div_sub_div _ _ hL'.ne' hm'.ne', div_le_div_iff₀ (by positivity) hm']
      nlinarith
    · filter_upwards [eventually_gt_atTop 0] with m hm
      have hm' : (0 : ℝ) < m := by exact_mod_cast hm
      rw [div_le_div_iff₀ hm' hL']
      have : m / L * L ≤ m := Nat.div_mul_le_self m L
      have : ((m / L : Nat) : ℝ) * L ≤ m := by exact_mod_cast this
      linarith
  have hrest : Tendsto (fun N : Nat => (B (N + 1) - B N) / N) atTop (𝓝 0) := by
    have h3 : Tendsto (fun N : Nat => B (N + 1) / ((N + 1 : Nat) : ℝ)) atTop (𝓝 C) := h2.comp (tendsto_add_atTop_nat 1)
    have h4 : Tendsto (fun N : Nat => (((N + 1 : Nat) : ℝ)) / N) atTop (𝓝 1) := by
      have h0 : Tendsto (fun m : Nat => (1 : ℝ) + 1 / m) atTop (𝓝 (1 + 0)) :=
        tendsto_const_nhds.add tendsto_one_div_atTop_nhds_zero_nat
      rw [add_zero] at h0
      refine h0.congr' ?_
      filter_upwards [eventually_gt_atTop 0] with m hm
      have hm' : (0 : ℝ) < m := by exact_mod_cast hm
      push_cast
      field_simp
    have h5 := (h3.mul h4).sub h2
    rw [mul_one, sub_self] at h5
    refine h5.congr' ?_
    filter_upwards [eventually_gt_atTop 0] with N hN0
    have hN' : (0 : ℝ) < N := by exact_mod_cast hN0
    have hN1 : (((N + 1 : Nat) : ℝ)) ≠ 0 := by positivity
    rw [sub_div]
    congr 1
    field_simp
  have hmain : Tendsto (fun m : Nat => (∑ j ∈ Finset.range (m / L * L), a j) / ((m / L : Nat) : ℝ) * (((m / L : Nat) : ℝ) / m))
      atTop (𝓝 (L * c * (1 / L))) := (h1.comp hN).mul hrat
  have hlim : (L : ℝ) * c * (1 / L) = c := by field_simp
  rw [hlim] at hmain
  have hdiff : Tendsto (fun m : Nat => (∑ j ∈ Finset.range m, a j) / m -
      (∑ j ∈ Finset.range (m / L * L), a j) / ((m / L : Nat) : ℝ) * (((m / L : Nat) : ℝ) / m)) atTop (𝓝 0) := by
    rw [tendsto_zero_iff_abs_tendsto_zero]
    refine tendsto_of_tendsto_of_tendsto_of_le_of_le' tendsto_const_nhds (hrest.comp hN) (Eventually.of_forall fun m => abs_nonneg _) ?_
    filter_upwards [hN.eventually_gt_atTop 0, eventually_gt_atTop 0] with m hm1 hm
    have hm' : (0 : ℝ) < m := by exact_mod_cast hm
    have hN' : (0 : ℝ) < ((m / L : Nat) : ℝ) := by exact_mod_cast hm1
    have h3 : (∑ j ∈ Finset.range (m / L * L), a j) / ((m / L : Nat) : ℝ) * (((m / L : Nat) : ℝ) / m) =
        (∑ j ∈ Finset.range (m / L * L), a j) / m := by field_simp
    simp only [Function.comp_apply]
    rw [h3, ← sub_div]
    have h4 : m = m / L * L + m % L := by rw [Nat.mul_comm]; exact (Nat.div_add_mod m L).symm
    have h5 : ∑ j ∈ Finset.range m, a j = ∑ j ∈ Finset.range (m / L * L), a j + ∑ j ∈ Finset.range (m % L), a (m / L * L + j) := by
      conv_lhs => rw [h4]
      rw [Finset.sum_range_add]
    have h6 : B (m / L + 1) - B (m / L) = ∑ j ∈ Finset.range L, |a (m / L * L + j)| := by
      rw [hB]
      dsimp only
      rw [Nat.add_mul, one_mul, Finset.sum_range_add]
      ring
    have h7 : |∑ j ∈ Finset.range (m % L), a (m / L * L + j)| ≤ ∑ j ∈ Finset.range L, |a (m / L * L + j)| := by
      refine (Finset.abs_sum_le_sum_abs _ _).trans (Finset.sum_le_sum_of_subset_of_nonneg ?_ fun _ _ _ => abs_nonneg _)
      exact Finset.range_mono (Nat.mod_lt m hL).le
    rw [h5, add_sub_cancel_left, abs_div, Nat.abs_cast]
    show _ ≤ (B (m / L + 1) - B (m / L)) / ((m / L : Nat) : ℝ)
    rw [h6]
    refine (div_le_div_of_nonneg_right h7 hm'.le).trans ?_
    refine div_le_div_of_nonneg_left (Finset.sum_nonneg fun _ _ => abs_nonneg _) hN' ?_
    exact_mod_cast Nat.div_le_self m L
  have := hdiff.add hmain
  rw [zero_add] at this
  exact this.congr fun m => sub_add_cancel _ _

theorem sum_rounds (a : Nat → ℝ) (L : Nat) : ∀ N : Nat,
    ∑ k ∈ Finset.range N, ∑ i ∈ Finset.range L, a (k * L + i) = ∑ j ∈ Finset.range (N * L), a j
  | 0 => by simp
  | N + 1 => by rw [Finset.sum_range_succ, sum_rounds a L N, Nat.add_mul, one_mul, Finset.sum_range_add]

/-! ## Chains -/

section Chains
variable {X Ω : Type} [MeasurableSpace X] [MeasurableSpace Ω]

theorem measurable_chain {next : Nat → X → Ω → X}
    (h : ∀ k, Measurable fun e : X × Ω => next k e.1 e.2) : ∀ k, Measurable fun z : X × (Nat → Ω) => chain next z.1 z.2 k
  | 0 => measurable_fst
  | k + 1 => (h k).comp ((measurable_chain h k).prodMk ((measurable_pi_apply k).comp measurable_snd))

theorem chain_add (next : Nat → X → Ω → X) (x : X) (ω : Nat → Ω) (m : Nat) : ∀ i,
    chain next x ω (m + i) = chain (fun j => next (m + j)) (chain next x ω m) (fun j => ω (m + j)) i
  | 0 => rfl
  | i + 1 => by
    show next (m + i) (chain next x ω (m + i)) (ω (m + i)) = _
    rw [chain_add next x ω m i]
    rfl

/-- Started with a law that every transition preserves, the chain keeps this law. -/
theorem chain_law {π : Measure X} [IsFiniteMeasure π] {P : Measure Ω} [IsProbabilityMeasure P] : ∀ (i : Nat) {next : Nat → X → Ω → X},
    (∀ k, Measurable fun e : X × Ω => next k e.1 e.2) → (∀ k, (π.prod P).map (fun e => next k e.1 e.2) = π) →
    (π.prod (inputs P)).map (fun z => chain next z.1 z.2 i) = π
  | 0, next, _, _ => by
    show (π.prod (inputs P)).map Prod.fst = π
    rw [Measure.map_fst_prod, measure_univ, one_smul]
  | i + 1, next, hm, hinv => by
    have h1 := chain_law (π := π) (P := P) i (next := fun k => next (k + 1)) (fun k => hm (k + 1)) fun k => hinv (k + 1)
    have h2 := advanceChain_preserving (hm 0) (hinv 0)
    have h3 : (fun z : X × (Nat → Ω) => chain next z.1 z.2 (i + 1)) =
        (fun z : X × (Nat → Ω) => chain (fun k => next (k + 1)) z.1 z.2 i) ∘ advanceChain (next 0) := by
      funext z
      rw [Nat.add_comm i 1, chain_add next z.1 z.2 1 i]
      show chain (fun j => next (1 + j)) _ (fun j => z.2 (1 + j)) i = chain (fun k => next (k + 1)) _ (fun k => z.2 (k + 1)) i
      simp only [Nat.add_comm 1]
      rfl
    rw [h3, ← Measure.map_map (measurable_chain (fun k => hm (k + 1)) i) h2.measurable, h2.map_eq, h1]

/-- The inputs of groups of `L` in a row. -/
def flatten {L : Nat} (hL : 0 < L) (ω : Nat → Fin L → Ω) (k : Nat) : Ω := ω (k / L) ⟨k % L, Nat.mod_lt _ hL⟩

theorem measurable_flatten {L : Nat} (hL : 0 < L) : Measurable (flatten (Ω := Ω) hL) :=
  measurable_pi_lambda _ fun k => (measurable_pi_apply (⟨k % L, Nat.mod_lt _ hL⟩ : Fin L)).comp (measurable_pi_apply (k / L))

theorem flatten_regroup {L : Nat} (hL : 0 < L) (ω : Nat → Ω) : flatten hL (fun k (j : Fin L) => ω (k * L + j)) = ω := by
  funext k
  show ω (k / L * L + k % L) = ω k
  rw [Nat.mul_comm, Nat.div_add_mod]

theorem flatten_shift {L : Nat} (hL : 0 < L) (ω : Nat → Fin L → Ω) (k : Nat) :
    flatten hL (fun i => ω (k + i)) = fun j => flatten hL ω (k * L + j) := by
  funext j
  unfold flatten
  have h1 : (k * L + j) / L = k + j / L := by
    rw [Nat.add_comm, Nat.add_mul_div_right _ _ hL, Nat.add_comm]
  have h2 : (k * L + j) % L = j % L := by rw [Nat.add_comm, Nat.add_mul_mod_self_right]
  simp only [h1, h2]

theorem inputs_flatten (P : Measure Ω) [IsProbabilityMeasure P] {L : Nat} (hL : 0 < L) :
    (inputs (Measure.pi fun _ : Fin L => P)).map (flatten hL) = inputs P := by
  have hmr : Measurable fun (ω : Nat → Ω) (k : Nat) (j : Fin L) => ω (k * L + j) :=
    measurable_pi_lambda _ fun k => measurable_pi_lambda _ fun j => measurable_pi_apply _
  rw [← inputs_regroup P hL, Measure.map_map (measurable_flatten hL) hmr]
  have : flatten hL ∘ (fun (ω : Nat → Ω) (k : Nat) (j : Fin L) => ω (k * L + j)) = id := funext fun ω => flatten_regroup hL ω
  rw [this, Measure.map_id]

end Chains

/-! ## The probability measure with a given density -/

section Density
variable {n : Nat}

/-- The probability measure with density proportional to `w`. -/
noncomputable def normalized (w : Vec ℝ n → ℝ) : Measure (Vec ℝ n) := (target w Set.univ)⁻¹ • target w

theorem target_univ_ne_zero {w : Vec ℝ n → ℝ} (hw : Measurable w) (hw0 : ∀ x, 0 < w x) : target w Set.univ ≠ 0 := by
  have hd : Measurable fun x => ENNReal.ofReal (w x) := ENNReal.measurable_ofReal.comp hw
  rw [target, withDensity_apply _ MeasurableSet.univ, Measure.restrict_univ, Ne, lintegral_eq_zero_iff hd]
  intro h
  have h1 : ∀ᵐ x : Vec ℝ n, False := h.mono fun x hx => by
    have : ENNReal.ofReal (w x) = 0 := hx
    rw [ENNReal.ofReal_eq_zero] at this
    exact absurd (hw0 x) (not_lt.2 this)
  rw [eventually_false_iff_eq_bot, ae_eq_bot] at h1
  exact NeZero.ne (volume : Measure (Vec ℝ n)) h1

theorem target_univ_ne_top {w : Vec ℝ n → ℝ} (hfin : ∫⁻ x, ENNReal.ofReal (w x) ≠ ∞) : target w Set.univ ≠ ∞ := by
  rw [target, withDensity_apply _ MeasurableSet.univ, Measure.restrict_univ]
  exact hfin

theorem normalized_prob {w : Vec ℝ n → ℝ} (hw : Measurable w) (hw0 : ∀ x, 0 < w x) (hfin : ∫⁻ x, ENNReal.ofReal (w x) ≠ ∞) :
    IsProbabilityMeasure (normalized w) :=
  ⟨by rw [normalized, Measure.smul_apply, smul_eq_mul, ENNReal.inv_mul_cancel (target_univ_ne_zero hw hw0) (target_univ_ne_top hfin)]⟩

theorem normalized_ac {w : Vec ℝ n → ℝ} : normalized w ≪ volume :=
  Measure.AbsolutelyContinuous.smul_left (withDensity_absolutelyContinuous _ _) _

theorem ae_of_normalized {w : Vec ℝ n → ℝ} (hw : Measurable w) (hw0 : ∀ x, 0 < w x) (hfin : ∫⁻ x, ENNReal.ofReal (w x) ≠ ∞)
    {p : Vec ℝ n → Prop} (h : ∀ᵐ x ∂(normalized w), p x) : ∀ᵐ x, p x := by
  have hd : Measurable fun x => ENNReal.ofReal (w x) := ENNReal.measurable_ofReal.comp hw
  rw [normalized, ae_iff, Measure.smul_apply, smul_eq_mul, mul_eq_zero] at h
  have h1 : ∀ᵐ x ∂(target w), p x := h.resolve_left (ENNReal.inv_ne_zero.2 (target_univ_ne_top hfin))
  rw [target, ae_withDensity_iff hd] at h1
  exact h1.mono fun x hx => hx (by rw [Ne, ENNReal.ofReal_eq_zero, not_le]; exact hw0 x)

theorem normalized_integrable {w : Vec ℝ n → ℝ} (hw : Measurable w) (hw0 : ∀ x, 0 < w x) {h : Vec ℝ n → ℝ}
    (hh : Integrable fun x => h x * w x) : Integrable h (normalized w) := by
  have hd : Measurable fun x => ENNReal.ofReal (w x) := ENNReal.measurable_ofReal.comp hw
  refine Integrable.smul_measure ?_ (ENNReal.inv_ne_top.2 (target_univ_ne_zero hw hw0))
  rw [target, integrable_withDensity_iff hd (ae_of_all _ fun x => ENNReal.ofReal_lt_top)]
  refine hh.congr (ae_of_all _ fun x => ?_)
  show h x * w x = h x * (ENNReal.ofReal (w x)).toReal
  rw [ENNReal.toReal_ofReal (hw0 x).le]

theorem normalized_integral {w : Vec ℝ n → ℝ} (hw : Measurable w) (hw0 : ∀ x, 0 < w x) (h : Vec ℝ n → ℝ) :
    ∫ x, h x ∂(normalized w) = mean w h := by
  have hd : Measurable fun x => ENNReal.ofReal (w x) := ENNReal.measurable_ofReal.comp hw
  rw [normalized, integral_smul_measure, smul_eq_mul, ENNReal.toReal_inv, mean]
  have h1 : (target w Set.univ).toReal = ∫ x, w x := by
    rw [target, withDensity_apply _ MeasurableSet.univ, Measure.restrict_univ,
      integral_eq_lintegral_of_nonneg_ae (ae_of_all _ fun x => (hw0 x).le) hw.aestronglyMeasurable]
  have h2 : ∫ x, h x ∂(target w) = ∫ x, h x * w x := by
    rw [target, integral_withDensity_eq_integral_toReal_smul hd (ae_of_all _ fun x => ENNReal.ofReal_lt_top)]
    refine integral_congr_ae (ae_of_all _ fun x => ?_)
    show (ENNReal.ofReal (w x)).toReal • h x = h x * w x
    rw [ENNReal.toReal_ofReal (hw0 x).le, smul_eq_mul, mul_comm]
  rw [h1, h2, div_eq_inv_mul]

variable {Ω : Type} [MeasurableSpace Ω] {P : Measure Ω}

/-- Transitions in detailed balance preserve the probability measure. -/
theorem normalized_stationary [IsProbabilityMeasure P] {w : Vec ℝ n → ℝ} (hw : Measurable w) {l : List (Vec ℝ n → Ω → Vec ℝ n)}
    (hm : ∀ next ∈ l, Measurable fun e : Vec ℝ n × Ω => next e.1 e.2) (hb : ∀ next ∈ l, DetailedBalance P next w) :
    ((normalized w).prod (Measure.pi fun _ : Fin l.length => P)).map (fun e => walk l e.1 e.2) = normalized w := by
  have hmw := measurable_walk l hm
  have : SFinite (target w) := by unfold target; infer_instance
  have h1 : ((target w).prod (Measure.pi fun _ : Fin l.length => P)).map (fun e => walk l e.1 e.2) = target w := by
    refine Measure.ext fun C hC => ?_
    rw [Measure.map_apply hmw hC, Measure.prod_apply (hmw hC), ← reach_stationary (P := P) hw hC l hm hb]
    refine lintegral_congr fun x => ?_
    rw [reach_eq_pi hC l hm x]
    rfl
  rw [normalized, Measure.prod_smul_left, Measure.map_smul, h1]

theorem normalized_stationary_one [IsProbabilityMeasure P] {w : Vec ℝ n → ℝ} (hw : Measurable w) {next : Vec ℝ n → Ω → Vec ℝ n}
    (hm : Measurable fun e : Vec ℝ n × Ω => next e.1 e.2) (hb : DetailedBalance P next w) :
    ((normalized w).prod P).map (fun e => next e.1 e.2) = normalized w := by
  have : SFinite (target w) := by unfold target; infer_instance
  have h1 : ((target w).prod P).map (fun e => next e.1 e.2) = target w := by
    refine Measure.ext fun C hC => ?_
    have h2 := reach_stationary (P := P) hw hC [next] (by simpa using hm) (by simpa using hb)
    rw [Measure.map_apply hm hC, Measure.prod_apply (hm hC), ← h2]
    refine lintegral_congr fun x => ?_
    show P {ω | next x ω ∈ C} = ∫⁻ ω, C.indicator 1 (next x ω) ∂P
    have h3 : MeasurableSet {ω | next x ω ∈ C} := (hm.comp measurable_prodMk_left) hC
    rw [← lintegral_indicator_one h3]
    rfl
  rw [normalized, Measure.prod_smul_left, Measure.map_smul, h1]

/-- The law of large numbers for a chain that repeats transitions in detailed balance with a density, when one round can lead
everywhere. -/
theorem rounds_average [IsProbabilityMeasure P] {w : Vec ℝ n → ℝ} (hw : Measurable w) (hw0 : ∀ x, 0 < w x)
    (hfin : ∫⁻ x, ENNReal.ofReal (w x) ≠ ∞) {l : List (Vec ℝ n → Ω → Vec ℝ n)} (hl : 0 < l.length)
    (hm : ∀ next ∈ l, Measurable fun e : Vec ℝ n × Ω => next e.1 e.2) (hb : ∀ next ∈ l, DetailedBalance P next w)
    {next : Nat → Vec ℝ n → Ω → Vec ℝ n} (hnext : ∀ k i (h : i < l.length), next (k * l.length + i) = l[i])
    (hpos : ∀ B, MeasurableSet B → volume B ≠ 0 → ∀ x, reach P B l x ≠ 0) {h : Vec ℝ n → ℝ} (hh : Measurable h)
    (hhi : Integrable fun x => h x * w x) :
    ∀ᵐ x, ∀ᵐ ω ∂(inputs P), Tendsto (fun m : Nat => (∑ k ∈ Finset.range m, h (chain next x ω k)) / m) atTop (𝓝 (mean w h)) := by
  have := normalized_prob hw hw0 hfin
  set π := normalized w with hπ
  set L := l.length with hLdef
  have hmw := measurable_walk l hm
  have hinv := normalized_stationary hw hm hb
  have hirr : ∀ B, MeasurableSet B → π B ≠ 0 → ∀ᵐ x ∂π, (Measure.pi fun _ : Fin L => P) {ω | walk l x ω ∈ B} ≠ 0 :=
    fun B hB hB0 => ae_of_all _ fun x => by
      rw [← reach_eq_pi hB l hm x]
      exact hpos B hB (fun h0 => hB0 (normalized_ac h0)) x
  have hget : ∀ k, next k = l[k % L]'(Nat.mod_lt _ hl) := by
    intro k
    have := hnext (k / L) (k % L) (Nat.mod_lt _ hl)
    rwa [Nat.mul_comm, Nat.div_add_mod] at this
  have hnm : ∀ k, Measurable fun e : Vec ℝ n × Ω => next k e.1 e.2 := fun k => by
    rw [hget k]
    exact hm _ (List.getElem_mem _)
  have hni : ∀ k, (π.prod P).map (fun e => next k e.1 e.2) = π := fun k => by
    have h1 := hnm k
    have h2 : DetailedBalance P (next k) w := by
      rw [hget k]
      exact hb _ (List.getElem_mem _)
    exact normalized_stationary_one hw h1 h2
  have hper : ∀ k, (fun j => next (k * L + j)) = next := by
    intro k
    funext j
    rw [hget, hget j]
    congr 1
    rw [Nat.add_comm, Nat.add_mul_mod_self_right]
  -- sums over one round
  have key : ∀ {v : Vec ℝ n → ℝ}, Measurable v → Integrable v π →
      ∀ᵐ x ∂π, ∀ᵐ ω ∂(inputs P), Tendsto (fun N : Nat => (∑ j ∈ Finset.range (N * L), v (chain next x ω j)) / N) atTop
        (𝓝 (L * ∫ x, v x ∂π)) := by
    intro v hv hvi
    set F : Vec ℝ n × (Nat → Fin L → Ω) → ℝ := fun z => ∑ i ∈ Finset.range L, v (chain next z.1 (flatten hl z.2) i) with hF
    have hfl : MeasurePreserving (Prod.map id (flatten hl)) (π.prod (inputs (Measure.pi fun _ : Fin L => P))) (π.prod (inputs P)) := by
      refine ⟨measurable_id.prodMap (measurable_flatten hl), ?_⟩
      rw [← Measure.map_prod_map _ _ measurable_id (measurable_flatten hl), inputs_flatten P hl, Measure.map_id]
    have hpres : ∀ i, MeasurePreserving (fun z : Vec ℝ n × (Nat → Fin L → Ω) => chain next z.1 (flatten hl z.2) i)
        (π.prod (inputs (Measure.pi fun _ : Fin L => P))) π := fun i =>
      (MeasurePreserving.mk (measurable_chain hnm i) (chain_law i hnm hni)).comp hfl
    have hFm : Measurable F := Finset.measurable_sum _ fun i _ => hv.comp (hpres i).measurable
    have hFi1 : ∀ i, Integrable (fun z : Vec ℝ n × (Nat → Fin L → Ω) => v (chain next z.1 (flatten hl z.2) i))
        (π.prod (inputs (Measure.pi fun _ : Fin L => P))) := fun i => (hpres i).integrable_comp_of_integrable hvi
    have hFi : Integrable F (π.prod (inputs (Measure.pi fun _ : Fin L => P))) := integrable_finset_sum _ fun i _ => hFi1 i
    have hint : ∫ z, F z ∂(π.prod (inputs (Measure.pi fun _ : Fin L => P))) = L * ∫ x, v x ∂π := by
      rw [hF, integral_finset_sum _ fun i _ => hFi1 i]
      have : ∀ i ∈ Finset.range L, ∫ z : Vec ℝ n × (Nat → Fin L → Ω), v (chain next z.1 (flatten hl z.2) i)
          ∂(π.prod (inputs (Measure.pi fun _ : Fin L => P))) = ∫ x, v x ∂π := by
        intro i _
        have h1 := integral_map (hpres i).measurable.aemeasurable (f := v) (by rw [(hpres i).map_eq]; exact hv.aestronglyMeasurable)
        rw [(hpres i).map_eq] at h1
        exact h1.symm
      rw [Finset.sum_congr rfl this, Finset.sum_const, Finset.card_range, nsmul_eq_mul]
    have h1 := chain_average hmw hinv hirr hFm hFi
    rw [hint] at h1
    refine (Measure.ae_ae_of_ae_prod h1).mono fun x hx => ?_
    rw [← inputs_regroup P hl] at hx
    have hmr : Measurable fun (ω : Nat → Ω) (k : Nat) (j : Fin L) => ω (k * L + j) :=
      measurable_pi_lambda _ fun k => measurable_pi_lambda _ fun j => measurable_pi_apply _
    refine (ae_of_ae_map hmr.aemeasurable hx).mono fun ω hω => ?_
    refine hω.congr fun N => ?_
    congr 1
    rw [← sum_rounds]
    refine Finset.sum_congr rfl fun k _ => Finset.sum_congr rfl fun i _ => ?_
    rw [advanceChain_iterate]
    show v (chain next (chain (fun _ => walk l) x _ k) (flatten hl fun i => _) i) = _
    rw [flatten_shift hl (fun k (j : Fin L) => ω (k * L + j)) k, flatten_regroup, ← chain_rounds hnext, chain_add next x ω (k * L) i, hper]
  have hhπ := normalized_integrable hw hw0 hhi
  have h1 := key hh hhπ
  have h2 := key (v := fun x => |h x|) (measurable_norm.comp hh) hhπ.abs
  rw [normalized_integral hw hw0] at h1
  refine ae_of_normalized hw hw0 hfin ?_
  filter_upwards [h1, h2] with x hx1 hx2
  filter_upwards [hx1, hx2] with ω hω1 hω2
  exact average_rounds hl hω1 hω2

end Density

end Stochopy
