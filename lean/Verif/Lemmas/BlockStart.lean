import Verif.Lemmas.Sweep
import Verif.Lemmas.EveryStart
import Verif.Lemmas.Ergodic
import Verif.Props.Recur

/-! # Chains that move one block after the other, from almost every start -/

set_option linter.unusedSectionVars false

namespace Stochopy
open MeasureTheory Spec Filter Topology ProbabilityTheory
open scoped ENNReal

section Chains
variable {X Ω : Type} [MeasurableSpace X] [MeasurableSpace Ω] {π : Measure X} [IsProbabilityMeasure π] {P : Measure Ω}
  [IsProbabilityMeasure P]

theorem chainMean_zero (next : Nat → X → Ω → X) (h : X → ℝ) : chainMean P next h 0 = h := by
  funext x
  have : IsProbabilityMeasure (inputs P) := by unfold inputs; infer_instance
  show ∫ _, h x ∂(inputs P) = h x
  rw [integral_const, probReal_univ, one_smul]

/-- The Markov property. -/
theorem chainMean_add {h : X → ℝ} (hh : Measurable h) {M : ℝ} (hM : ∀ x, |h x| ≤ M) (n : Nat) : ∀ (m : Nat) {next : Nat → X → Ω → X},
    (∀ k, Measurable fun e : X × Ω => next k e.1 e.2) →
    chainMean P next h (m + n) = chainMean P next (chainMean P (fun j => next (m + j)) h n) m
  | 0, next, _ => by
    rw [chainMean_zero, Nat.zero_add]
    simp only [Nat.zero_add]
  | m + 1, next, hm => by
    have h1 := chainMean_ok (P := P) (next := fun j => next (m + 1 + j)) (fun j => hm _) hh hM n
    rw [chainMean_succ hm h1.1 h1.2 m, show m + 1 + n = (m + n) + 1 by omega, chainMean_succ hm hh hM (m + n),
      chainMean_add hh hM n m fun j => hm (j + 1)]
    have : (fun j => next (m + j + 1)) = fun j => next (m + 1 + j) := funext fun j => by rw [Nat.add_right_comm]
    rw [this]

theorem indicator_ok {N : Set X} (hN : MeasurableSet N) :
    Measurable (N.indicator (1 : X → ℝ)) ∧ ∀ y, |N.indicator (1 : X → ℝ) y| ≤ 1 := by
  refine ⟨measurable_const.indicator hN, fun y => ?_⟩
  by_cases hy : y ∈ N
  · rw [Set.indicator_of_mem hy]
    exact (abs_one (α := ℝ)).le
  · rw [Set.indicator_of_notMem hy, abs_zero]
    exact zero_le_one

theorem chainMean_indicator {next : Nat → X → Ω → X} (hm : ∀ k, Measurable fun e : X × Ω => next k e.1 e.2) {N : Set X}
    (hN : MeasurableSet N) (k : Nat) (x : X) :
    chainMean P next (N.indicator 1) k x = (inputs P).real {ω | chain next x ω k ∈ N} := by
  have hS : MeasurableSet {ω | chain next x ω k ∈ N} := ((measurable_chain hm k).comp measurable_prodMk_left) hN
  rw [← integral_indicator_one hS]
  rfl

/-- An event at the next step is null if its conditional probability vanishes almost surely. -/
theorem chain_null {next : Nat → X → Ω → X} (hm : ∀ k, Measurable fun e : X × Ω => next k e.1 e.2) {N : Set X} (hN : MeasurableSet N)
    (m : Nat) (x : X) (h : inputs P {ω | P {r | next m (chain next x ω m) r ∈ N} ≠ 0} = 0) :
    inputs P {ω | chain next x ω (m + 1) ∈ N} = 0 := by
  have : IsProbabilityMeasure (inputs P) := by unfold inputs; infer_instance
  obtain ⟨hi, hi1⟩ := indicator_ok hN
  have h1 := chainMean_indicator (P := P) hm hN (m + 1) x
  rw [chainMean_add hi hi1 1 m hm, chainMean_succ (next := fun j => next (m + j)) (fun j => hm _) hi hi1 0, chainMean_zero] at h1
  have h2 : chainMean P next (expect P (next m) (N.indicator 1)) m x = 0 := by
    unfold chainMean
    rw [← integral_zero (Nat → Ω) ℝ (μ := inputs P)]
    refine integral_congr_ae ?_
    have h3 : ∀ᵐ ω ∂(inputs P), P {r | next m (chain next x ω m) r ∈ N} = 0 := by rw [ae_iff]; exact h
    filter_upwards [h3] with ω hω
    have hS : MeasurableSet {r | next m (chain next x ω m) r ∈ N} := ((hm m).comp measurable_prodMk_left) hN
    show ∫ r, {r | next m (chain next x ω m) r ∈ N}.indicator (1 : Ω → ℝ) r ∂P = 0
    rw [integral_indicator_one hS, measureReal_def, hω, ENNReal.toReal_zero]
  have h4 : (inputs P).real {ω | chain next x ω (m + 1) ∈ N} = 0 := h1.symm.trans h2
  exact (measureReal_eq_zero_iff (measure_ne_top _ _)).1 h4

/-- The same for two consecutive points. -/
theorem chain_pair_null {A B : Set X} (hA : MeasurableSet A) (hB : MeasurableSet B) : ∀ (m : Nat) {next : Nat → X → Ω → X},
    (∀ k, Measurable fun e : X × Ω => next k e.1 e.2) → (∀ y ∈ A, P {r | next m y r ∈ B} = 0) → ∀ x,
    inputs P {ω | chain next x ω m ∈ A ∧ chain next x ω (m + 1) ∈ B} = 0
  | 0, next, hm, h, x => by
    by_cases hx : x ∈ A
    · have h1 := chain_null (P := P) hm hB 0 x (by
        refine measure_mono_null (fun ω hω => ?_) measure_empty
        exact hω (h x hx))
      exact measure_mono_null (fun ω hω => hω.2) h1
    · exact measure_mono_null (fun ω hω => hx hω.1) measure_empty
  | m + 1, next, hm, h, x => by
    have hcx : ∀ k, Measurable fun ω => chain next x ω k := fun k => (measurable_chain hm k).comp measurable_prodMk_left
    have hE : MeasurableSet {ω | chain next x ω (m + 1) ∈ A ∧ chain next x ω (m + 1 + 1) ∈ B} := (hcx _ hA).inter (hcx _ hB)
    rw [inputs_split P hE]
    refine (lintegral_congr fun r => ?_).trans (lintegral_zero)
    have h1 := chain_pair_null hA hB m (next := fun j => next (j + 1)) (fun k => hm (k + 1)) h (next 0 x r)
    have h2 : {ω | cons (r, ω) ∈ {ω | chain next x ω (m + 1) ∈ A ∧ chain next x ω (m + 1 + 1) ∈ B}} =
        {ω | chain (fun j => next (j + 1)) (next 0 x r) ω m ∈ A ∧ chain (fun j => next (j + 1)) (next 0 x r) ω (m + 1) ∈ B} := by
      ext ω
      show chain next x (cons (r, ω)) (m + 1) ∈ A ∧ chain next x (cons (r, ω)) (m + 1 + 1) ∈ B ↔ _
      rw [chain_cons, chain_cons]
      rfl
    rw [h2, h1]

/-- Convergence in total variation from a start whose law becomes more and more like one with a density. -/
theorem sweep_start {next : Nat → X → Ω → X} (hm : ∀ k, Measurable fun e : X × Ω => next k e.1 e.2) (hrev : ∀ k, Reversible π P (next k))
    (hpos : ∀ (k : Nat) (h : X → ℝ) (M : ℝ), Measurable h → (∀ x, |h x| ≤ M) → 0 ≤ ∫ x, h x * expect P (next k) h x ∂π) {L : Nat}
    (hL : 0 < L) (hper : ∀ k j, next (k * L + j) = next j)
    (hlaw : ∀ (h : X → ℝ) (M : ℝ), Measurable h → (∀ x, |h x| ≤ M) →
      ∀ᵐ x ∂π, Tendsto (fun N : Nat => (∑ k ∈ Finset.range N, chainMean P next h k x) / N) atTop (𝓝 (∫ x, h x ∂π)))
    {x : X} {G : Set X} (hG : MeasurableSet G) (hac : ∀ k N, MeasurableSet N → π N = 0 → inputs P {ω | chain next x ω k ∈ G ∩ N} = 0)
    (hrest : Tendsto (fun k => (inputs P).real {ω | chain next x ω k ∉ G}) atTop (𝓝 0)) {ε : ℝ} (hε : 0 < ε) :
    ∃ N : Nat, ∀ n ≥ N, ∀ h : X → ℝ, Measurable h → (∀ x, |h x| ≤ 1) → |chainMean P next h n x - ∫ x, h x ∂π| < ε := by
  have : IsProbabilityMeasure (inputs P) := by unfold inputs; infer_instance
  obtain ⟨r, hr⟩ : ∃ r, (inputs P).real {ω | chain next x ω (r * L) ∉ G} < ε / 4 := by
    have h1 := hrest.comp (tendsto_id.atTop_mul_const' hL)
    obtain ⟨r, hr⟩ := ((tendsto_order.1 h1).2 (ε / 4) (by linarith)).exists
    exact ⟨r, hr⟩
  have hmx : Measurable fun ω => chain next x ω (r * L) := (measurable_chain hm (r * L)).comp measurable_prodMk_left
  set μ := (inputs P).map fun ω => chain next x ω (r * L) with hμ
  have hμp : IsProbabilityMeasure μ := Measure.isProbabilityMeasure_map hmx.aemeasurable
  have hν : μ.restrict G ≪ π := by
    refine Measure.AbsolutelyContinuous.mk fun N hN h0 => ?_
    rw [Measure.restrict_apply hN, hμ, Measure.map_apply hmx (hN.inter hG), Set.inter_comm]
    exact hac (r * L) N hN h0
  have hcomp : μ.real Gᶜ < ε / 4 := by
    rw [hμ, map_measureReal_apply hmx hG.compl]
    exact hr
  obtain ⟨N, hN⟩ := sweep_density hm hrev hpos hL hper hlaw hν (ε := ε / 2) (by linarith)
  refine ⟨N + r * L, fun n hn h hh h1 => ?_⟩
  obtain ⟨j, rfl⟩ := Nat.exists_eq_add_of_le (show r * L ≤ n by omega)
  have hj := hN j (by omega) h hh h1
  have hg := chainMean_ok (P := P) hm hh h1 j
  have hshift : (fun i => next (r * L + i)) = next := funext fun i => hper r i
  have e1 : chainMean P next h (r * L + j) x = ∫ y, chainMean P next h j y ∂μ := by
    rw [chainMean_add hh h1 j (r * L) hm, hshift, hμ, integral_map hmx.aemeasurable hg.1.aestronglyMeasurable]
    rfl
  have hgi := bounded_integrable (μ := μ) hg.1 hg.2
  have e2 := integral_add_compl hG hgi
  have e3 : (μ.restrict G).real Set.univ = 1 - μ.real Gᶜ := by
    rw [measureReal_restrict_apply MeasurableSet.univ, Set.univ_inter, probReal_compl_eq_one_sub hG]
    ring
  have p1 : |∫ y in Gᶜ, chainMean P next h j y ∂μ| ≤ μ.real Gᶜ := by
    have := norm_integral_le_of_norm_le_const (μ := μ.restrict Gᶜ) (f := chainMean P next h j) (C := 1) (ae_of_all _ hg.2)
    rwa [one_mul, measureReal_restrict_apply MeasurableSet.univ, Set.univ_inter] at this
  have hc1 : |∫ x, h x ∂π| ≤ 1 := by
    have := norm_integral_le_of_norm_le_const (μ := π) (f := h) (C := 1) (ae_of_all _ h1)
    rwa [probReal_univ, mul_one] at this
  have p2 : |μ.real Gᶜ * ∫ x, h x ∂π| ≤ μ.real Gᶜ := by
    rw [abs_mul, abs_of_nonneg measureReal_nonneg]
    exact mul_le_of_le_one_right measureReal_nonneg hc1
  rw [e3] at hj
  rw [e1, ← e2]
  rw [abs_lt] at hj ⊢
  rw [abs_le] at p1 p2
  constructor <;> nlinarith [hj.1, hj.2, p1.1, p1.2, p2.1, p2.2]

end Chains

section Walk
variable {n : Nat} {f : Vec ℝ n → ℝ}

/-- Coordinates of two independent Gaussian vectors can be exchanged. -/
theorem gauss_exchange (c : Fin n → Prop) [DecidablePred c] :
    MeasurePreserving (fun z : Vec ℝ n × Vec ℝ n => (mix c z.1 z.2, mix c z.2 z.1)) ((gauss n).prod (gauss n)) ((gauss n).prod (gauss n)) := by
  have h2 := measurePreserving_arrowProdEquivProdArrow ℝ ℝ (Fin n) (fun _ => gaussianReal 0 1) fun _ => gaussianReal 0 1
  have h3 : MeasurePreserving (fun (a : Fin n → ℝ × ℝ) (i : Fin n) => if c i then a i else (a i).swap)
      (Measure.pi fun _ => (gaussianReal 0 1).prod (gaussianReal 0 1)) (Measure.pi fun _ => (gaussianReal 0 1).prod (gaussianReal 0 1)) := by
    refine measurePreserving_pi (f := fun i (a : ℝ × ℝ) => if c i then a else a.swap) _ _ fun i => ?_
    by_cases hi : c i
    · simp only [if_pos hi]
      exact MeasurePreserving.id _
    · simp only [if_neg hi]
      exact Measure.measurePreserving_swap
  have h4 := h2.comp (h3.comp h2.symm)
  have h5 : (fun z : Vec ℝ n × Vec ℝ n => (mix c z.1 z.2, mix c z.2 z.1)) =
      (MeasurableEquiv.arrowProdEquivProdArrow ℝ ℝ (Fin n)) ∘ (fun (a : Fin n → ℝ × ℝ) (i : Fin n) => if c i then a i else (a i).swap) ∘
        (MeasurableEquiv.arrowProdEquivProdArrow ℝ ℝ (Fin n)).symm := by
    funext z
    refine Prod.ext (funext fun i => ?_) (funext fun i => ?_)
    · show (if c i then z.1 i else z.2 i) = (if c i then (z.1 i, z.2 i) else (z.2 i, z.1 i)).1
      split_ifs <;> rfl
    · show (if c i then z.2 i else z.1 i) = (if c i then (z.1 i, z.2 i) else (z.2 i, z.1 i)).2
      split_ifs <;> rfl
  rw [h5]
  exact h4

theorem measurable_mix_left (c : Fin n → Prop) [DecidablePred c] (x : Vec ℝ n) : Measurable fun z : Vec ℝ n => mix c z x := by
  refine measurable_pi_lambda _ fun j => ?_
  unfold mix
  by_cases hj : c j
  · simp only [if_pos hj]; exact measurable_pi_apply j
  · simp only [if_neg hj]; exact measurable_const

/-- Moving a block of a point with some Gaussian coordinates gives a point with some more of them. -/
theorem move_null {scale : Vec ℝ n} (hs : ∀ c, scale c ≠ 0) (per b : Nat) (x : Vec ℝ n) {N : Set (Vec ℝ n)} (hN : MeasurableSet N)
    (h0 : ∀ S : Finset (Fin n), gauss n {z | mix (· ∈ S) z x ∈ N} = 0) (S : Finset (Fin n)) :
    ∀ᵐ z ∂(gauss n), gauss n {z' | mix (· ∈ S) z x + shift scale per b z' ∈ N} = 0 := by
  classical
  set c : Fin n → Prop := fun j => j.val / per = b with hc
  set S' : Finset (Fin n) := S ∪ Finset.univ.filter c with hS'
  have hmem : ∀ j, j ∈ S' ↔ j ∈ S ∨ c j := fun j => by simp [hS']
  have hmS : Measurable fun e : Vec ℝ n × Vec ℝ n => mix (· ∈ S) e.1 x + shift scale per b e.2 :=
    ((measurable_mix_left _ x).comp measurable_fst).add ((measurable_shift scale per b).comp measurable_snd)
  have hA : MeasurableSet {e : Vec ℝ n × Vec ℝ n | mix (· ∈ S) e.1 x + shift scale per b e.2 ∈ N} := hmS hN
  have key : ((gauss n).prod (gauss n)) {e : Vec ℝ n × Vec ℝ n | mix (· ∈ S) e.1 x + shift scale per b e.2 ∈ N} = 0 := by
    -- exchange the coordinates of the block
    have hex := gauss_exchange (n := n) fun j => ¬ c j
    rw [← hex.measure_preimage hA.nullMeasurableSet, ← Measure.prod_swap, Measure.map_apply measurable_swap (hex.measurable hA),
      Measure.measure_prod_null (measurable_swap (hex.measurable hA))]
    refine ae_of_all _ fun v => ?_
    -- the other vector only shifts
    set l : Vec ℝ n := fun j => if c j then mix (· ∈ S) v x j else 0 with hl
    set d : Vec ℝ n := fun j => if c j then scale j else 1 with hd
    have hd0 : ∀ j, d j ≠ 0 := fun j => by
      show (if c j then scale j else 1) ≠ 0
      split_ifs
      · exact hs j
      · exact one_ne_zero
    have h1 : volume {z : Vec ℝ n | mix (· ∈ S') z x ∈ N} = 0 := volume_ac_gauss n (h0 S')
    refine measure_mono_null ?_ (gauss_ac n (affine_null l hd0 h1))
    intro u hu
    have hu' : mix (· ∈ S) (mix (fun j => ¬ c j) u v) x + shift scale per b (mix (fun j => ¬ c j) v u) ∈ N := hu
    show mix (· ∈ S') (fun j => l j + d j * u j) x ∈ N
    refine (congrArg (· ∈ N) (funext fun j => ?_)).mp hu'
    show (if j ∈ S then (if ¬ c j then u j else v j) else x j) + (if j.val / per = b then (if ¬ c j then v j else u j) * scale j else 0) =
      if j ∈ S' then (if c j then (if j ∈ S then v j else x j) else 0) + (if c j then scale j else 1) * u j else x j
    by_cases hj : c j
    · have hj' : j.val / per = b := hj
      rw [if_pos ((hmem j).2 (Or.inr hj)), if_pos hj', if_neg (not_not.2 hj), if_neg (not_not.2 hj), if_pos hj, if_pos hj, mul_comm]
    · have hj' : ¬ j.val / per = b := hj
      rw [if_neg hj', if_pos hj, if_neg hj, if_neg hj, add_zero, zero_add, one_mul]
      by_cases hjS : j ∈ S
      · rw [if_pos hjS, if_pos ((hmem j).2 (Or.inl hjS))]
      · rw [if_neg hjS, if_neg fun h => ((hmem j).1 h).elim hjS hj]
  exact (Measure.measure_prod_null hA).1 key

/-- Where a transition can lead. -/
theorem walkStep_cases (f : Vec ℝ n → ℝ) (scale : Vec ℝ n) (per b : Nat) (x : Vec ℝ n) (ω : Vec ℝ n × ℝ) :
    walkStep f scale per b x ω = x ∨ walkStep f scale per b x ω = x + shift scale per b ω.1 := by
  unfold walkStep
  dsimp only
  split
  · exact Or.inr (blockMove_eq _ _ _ _ _)
  · exact Or.inl rfl

theorem walk_avoid (f : Vec ℝ n → ℝ) (scale : Vec ℝ n) (per b : Nat) {x : Vec ℝ n} {N : Set (Vec ℝ n)} (hx : x ∉ N)
    (h : gauss n {z | x + shift scale per b z ∈ N} = 0) : ((gauss n).prod unifLaw) {ω | walkStep f scale per b x ω ∈ N} = 0 := by
  refine measure_mono_null (t := {z | x + shift scale per b z ∈ N} ×ˢ Set.univ) (fun ω hω => ⟨?_, trivial⟩)
    (by rw [Measure.prod_prod, h, zero_mul])
  have hω' : walkStep f scale per b x ω ∈ N := hω
  rcases walkStep_cases f scale per b x ω with e | e
  · rw [e] at hω'
    exact absurd hω' hx
  · rw [e] at hω'
    exact hω'

variable {scale : Vec ℝ n} {per : Nat} (hper : 0 < per)

theorem next_avoid (hf : Measurable f) (k : Nat) {x : Vec ℝ n} {N : Set (Vec ℝ n)} (hN : MeasurableSet N) (hx : x ∉ N)
    (h : gauss n {z | x + shift scale per (k % blockCount n per) z ∈ N} = 0) :
    ((gauss per).prod unifLaw) {r | mcmcNext f scale hper k x r ∈ N} = 0 :=
  (blockStep_law hf scale hper _ x hN).trans (walk_avoid f scale per _ hx h)

/-- The law of a sample is a mixture of laws that have a density in some coordinates and fix the others. -/
theorem law_mixture (hf : Measurable f) (hs : ∀ c, scale c ≠ 0) (x : Vec ℝ n) : ∀ (m : Nat) {N : Set (Vec ℝ n)}, MeasurableSet N →
    (∀ S : Finset (Fin n), gauss n {z | mix (· ∈ S) z x ∈ N} = 0) →
    inputs ((gauss per).prod unifLaw) {ω | chain (mcmcNext f scale hper) x ω m ∈ N} = 0
  | 0, N, _, h0 => by
    have h1 := h0 ∅
    have h2 : ∀ z : Vec ℝ n, mix (· ∈ (∅ : Finset (Fin n))) z x = x := fun z => funext fun j => if_neg (Finset.notMem_empty j)
    simp only [h2] at h1
    have h3 : x ∉ N := by
      intro hx
      have h3 : {_z : Vec ℝ n | x ∈ N} = Set.univ := Set.eq_univ_of_forall fun _ => hx
      rw [h3, measure_univ] at h1
      exact one_ne_zero h1
    exact measure_mono_null (fun ω hω => h3 hω) (measure_empty)
  | m + 1, N, hN, h0 => by
    have hm : ∀ k, Measurable fun e : Vec ℝ n × (Vec ℝ per × ℝ) => mcmcNext f scale hper k e.1 e.2 := fun k =>
      measurable_blockStep hf scale hper _
    refine chain_null hm hN m x ?_
    have hp : Measurable fun y => ((gauss per).prod unifLaw) {r | mcmcNext f scale hper m y r ∈ N} := measurable_measure_prodMk_left (hm m hN)
    refine law_mixture hf hs x m (N := {y | ((gauss per).prod unifLaw) {r | mcmcNext f scale hper m y r ∈ N} ≠ 0})
      (hp (measurableSet_singleton 0).compl) fun S => ?_
    have h1 := move_null hs per (m % blockCount n per) x hN h0 S
    have h2 : ∀ᵐ z ∂(gauss n), mix (· ∈ S) z x ∉ N := by
      rw [ae_iff]
      simpa using h0 S
    have h3 : ∀ᵐ z ∂(gauss n), ((gauss per).prod unifLaw) {r | mcmcNext f scale hper m (mix (· ∈ S) z x) r ∈ N} = 0 := by
      filter_upwards [h1, h2] with z h1 h2
      exact next_avoid hper hf m hN h2 h1
    rwa [ae_iff] at h3

theorem measurableSet_changed (x : Vec ℝ n) : MeasurableSet {y : Vec ℝ n | ∀ c, y c ≠ x c} := by
  rw [Set.setOf_forall]
  exact MeasurableSet.iInter fun c => (measurableSet_eq_fun (measurable_pi_apply c) measurable_const).compl

/-- Once every coordinate has changed, null sets are avoided. -/
theorem law_changed (hf : Measurable f) (hs : ∀ c, scale c ≠ 0) (x : Vec ℝ n) (m : Nat) {N : Set (Vec ℝ n)} (hN : MeasurableSet N)
    (h0 : volume N = 0) :
    inputs ((gauss per).prod unifLaw) {ω | chain (mcmcNext f scale hper) x ω m ∈ {y | ∀ c, y c ≠ x c} ∩ N} = 0 := by
  refine law_mixture hper hf hs x m ((measurableSet_changed x).inter hN) fun S => ?_
  by_cases hS : ∀ c, c ∈ S
  · have h1 : ∀ z : Vec ℝ n, mix (· ∈ S) z x = z := fun z => funext fun j => if_pos (hS j)
    simp only [h1]
    exact gauss_ac n (measure_mono_null Set.inter_subset_right h0)
  · obtain ⟨c, hc⟩ := not_forall.1 hS
    have h1 : ∀ z : Vec ℝ n, mix (· ∈ S) z x c = x c := fun z => if_neg hc
    refine measure_mono_null (fun z hz => ?_) measure_empty
    exact hz.1 c (h1 z)

/-- A coordinate that has changed does not return. -/
theorem no_return (hf : Measurable f) (hs : ∀ c, scale c ≠ 0) (x : Vec ℝ n) (c : Fin n) (k : Nat) {y : Vec ℝ n} (hy : y c ≠ x c) :
    ((gauss per).prod unifLaw) {r | mcmcNext f scale hper k y r c = x c} = 0 := by
  refine next_avoid hper hf k (N := {y | y c = x c}) (measurableSet_eq_fun (measurable_pi_apply c) measurable_const) hy ?_
  by_cases hb : c.val / per = k % blockCount n per
  · have h1 : volume {z : Vec ℝ n | z c = 0} = 0 := by
      have := Measure.pi_hyperplane (fun _ : Fin n => (volume : Measure ℝ)) c 0
      rwa [← volume_pi] at this
    refine measure_mono_null (fun z hz => ?_) (gauss_ac n (affine_null (fun j => y j - x j) hs h1))
    have hz' : y c + shift scale per (k % blockCount n per) z c = x c := hz
    unfold shift at hz'
    rw [if_pos hb] at hz'
    show y c - x c + scale c * z c = 0
    linarith
  · refine measure_mono_null (fun z hz => ?_) measure_empty
    have hz' : y c + shift scale per (k % blockCount n per) z c = x c := hz
    unfold shift at hz'
    rw [if_neg hb, add_zero] at hz'
    exact hy hz'

/-- From almost every start, every coordinate changes sooner or later. -/
theorem changes (hn : 0 < n) (hf : Measurable f) (hint : ∫⁻ x, ENNReal.ofReal (Real.exp (-f x)) ≠ ∞) (hs : ∀ c, scale c ≠ 0) :
    ∀ᵐ x, Tendsto (fun k => (inputs ((gauss per).prod unifLaw)).real
      {ω | chain (mcmcNext f scale hper) x ω k ∉ {y | ∀ c, y c ≠ x c}}) atTop (𝓝 0) := by
  have : IsProbabilityMeasure (inputs ((gauss per).prod unifLaw)) := by unfold inputs; infer_instance
  have hm : ∀ k, Measurable fun e : Vec ℝ n × (Vec ℝ per × ℝ) => mcmcNext f scale hper k e.1 e.2 := fun k =>
    measurable_blockStep hf scale hper _
  have hvis : ∀ᵐ x : Vec ℝ n, ∀ (c : Fin n) (q : ℚ), ∀ᵐ ω ∂(inputs ((gauss per).prod unifLaw)),
      ∃ᶠ k in atTop, chain (mcmcNext f scale hper) x ω k ∈ {y : Vec ℝ n | (q : ℝ) < y c} := by
    rw [ae_all_iff]
    intro c
    rw [ae_all_iff]
    intro q
    have ho : IsOpen {y : Vec ℝ n | (q : ℝ) < y c} := isOpen_lt continuous_const (continuous_apply c)
    exact C96_mcmc_kernel hn hf hint hs hper ho.measurableSet (ho.measure_pos _ ⟨fun _ => q + 1, by show (q : ℝ) < q + 1; linarith⟩)
  filter_upwards [hvis] with x hx
  have hcx : ∀ k, Measurable fun ω => chain (mcmcNext f scale hper) x ω k := fun k => (measurable_chain hm k).comp measurable_prodMk_left
  have hEm : ∀ c k, MeasurableSet {ω | chain (mcmcNext f scale hper) x ω k c = x c} := fun c k =>
    ((measurable_pi_apply c).comp (hcx k)) (measurableSet_singleton (x c))
  -- one coordinate
  have hone : ∀ c, Tendsto (fun k => (inputs ((gauss per).prod unifLaw)) {ω | chain (mcmcNext f scale hper) x ω k c = x c}) atTop (𝓝 0) := by
    intro c
    set F : Nat → Set (Nat → Vec ℝ per × ℝ) := fun m => {ω | ∀ j ≤ m, chain (mcmcNext f scale hper) x ω j c = x c} with hF
    have hFm : ∀ m, MeasurableSet (F m) := fun m => by
      show MeasurableSet {ω | ∀ j ≤ m, chain (mcmcNext f scale hper) x ω j c = x c}
      simp only [Set.setOf_forall]
      exact MeasurableSet.iInter fun j => MeasurableSet.iInter fun _ => hEm c j
    have hlim : Tendsto (fun m => (inputs ((gauss per).prod unifLaw)) (F m)) atTop (𝓝 ((inputs ((gauss per).prod unifLaw)) (⋂ m, F m))) :=
      tendsto_measure_iInter_atTop (fun m => (hFm m).nullMeasurableSet) (fun i j hij ω hω k hk => hω k (hk.trans hij))
        ⟨0, measure_ne_top _ _⟩
    have hzero : (inputs ((gauss per).prod unifLaw)) (⋂ m, F m) = 0 := by
      obtain ⟨q, hq⟩ := exists_rat_gt (x c)
      have h1 := hx c q
      rw [ae_iff] at h1
      refine measure_mono_null ?_ h1
      intro ω hω
      show ¬ ∃ᶠ k in atTop, chain (mcmcNext f scale hper) x ω k ∈ {y : Vec ℝ n | (q : ℝ) < y c}
      intro hfr
      obtain ⟨k, hk⟩ := hfr.exists
      have h2 := (Set.mem_iInter.1 hω k) k le_rfl
      have hk' : (q : ℝ) < chain (mcmcNext f scale hper) x ω k c := hk
      rw [h2] at hk'
      linarith
    rw [hzero] at hlim
    refine tendsto_of_tendsto_of_tendsto_of_le_of_le tendsto_const_nhds hlim (fun _ => bot_le) fun m => ?_
    have hD : (inputs ((gauss per).prod unifLaw)) ({ω | chain (mcmcNext f scale hper) x ω m c = x c} \ F m) = 0 := by
      induction m with
      | zero =>
        refine measure_mono_null (fun ω hω => ?_) measure_empty
        refine hω.2 fun j hj => ?_
        rw [Nat.le_zero.1 hj]
        exact hω.1
      | succ m ih =>
        have h2 := chain_pair_null (P := (gauss per).prod unifLaw) (A := {y : Vec ℝ n | y c ≠ x c}) (B := {y : Vec ℝ n | y c = x c})
          (measurableSet_eq_fun (measurable_pi_apply c) measurable_const).compl
          (measurableSet_eq_fun (measurable_pi_apply c) measurable_const) m (next := mcmcNext f scale hper) hm
          (fun y hy => no_return hper hf hs x c m hy) x
        refine measure_mono_null (fun ω hω => ?_) (measure_union_null ih h2)
        by_cases he : chain (mcmcNext f scale hper) x ω m c = x c
        · refine Or.inl ⟨he, fun hFm => hω.2 fun j hj => ?_⟩
          rcases Nat.le_succ_iff.1 hj with h | h
          · exact hFm j h
          · rw [h]
            exact hω.1
        · exact Or.inr ⟨he, hω.1⟩
    calc (inputs ((gauss per).prod unifLaw)) {ω | chain (mcmcNext f scale hper) x ω m c = x c}
        ≤ (inputs ((gauss per).prod unifLaw)) (F m ∪ ({ω | chain (mcmcNext f scale hper) x ω m c = x c} \ F m)) := by
          refine measure_mono fun ω hω => ?_
          by_cases h : ω ∈ F m
          · exact Or.inl h
          · exact Or.inr ⟨hω, h⟩
      _ ≤ _ := (measure_union_le _ _).trans (by rw [hD, add_zero])
  have hsum : Tendsto (fun k => ∑ c, (inputs ((gauss per).prod unifLaw)) {ω | chain (mcmcNext f scale hper) x ω k c = x c}) atTop (𝓝 0) := by
    have := tendsto_finset_sum Finset.univ fun c _ => hone c
    simpa using this
  have hall : Tendsto (fun k => (inputs ((gauss per).prod unifLaw)) {ω | chain (mcmcNext f scale hper) x ω k ∉ {y | ∀ c, y c ≠ x c}})
      atTop (𝓝 0) := by
    refine tendsto_of_tendsto_of_tendsto_of_le_of_le tendsto_const_nhds hsum (fun _ => bot_le) fun k => ?_
    refine le_trans (measure_mono fun ω hω => ?_) (measure_iUnion_fintype_le _ _)
    have hω' : ¬ ∀ c, chain (mcmcNext f scale hper) x ω k c ≠ x c := hω
    obtain ⟨c, hc⟩ := not_forall.1 hω'
    exact Set.mem_iUnion.2 ⟨c, not_not.1 hc⟩
  have h3 := (ENNReal.tendsto_toReal ENNReal.zero_ne_top).comp hall
  rwa [ENNReal.toReal_zero] at h3

end Walk

end Stochopy
