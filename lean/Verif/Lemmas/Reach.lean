import Verif.Spec.Reach
import Verif.Lemmas.Kernel
import Mathlib.Topology.MetricSpace.Contracting
import Mathlib.Analysis.Normed.Group.Constructions

/-! # Sets that a Metropolis chain can reach -/

set_option linter.unusedSectionVars false

namespace Stochopy
open MeasureTheory ProbabilityTheory Spec Sampling
open scoped ENNReal

theorem volume_ac_gauss (n : Nat) : (volume : Measure (Vec ℝ n)) ≪ gauss n := by
  rw [gauss_density]
  refine withDensity_absolutelyContinuous' ?_ ?_
  · refine (Measurable.const_mul ?_ _).aemeasurable
    refine ENNReal.measurable_ofReal.comp (Real.measurable_exp.comp (Measurable.neg (Measurable.div_const ?_ 2)))
    exact Finset.measurable_sum _ fun j _ => (measurable_pi_apply j).pow_const 2
  · refine ae_of_all _ fun z => mul_ne_zero (pow_ne_zero _ ?_) ?_
    · exact (ENNReal.ofReal_pos.2 (inv_pos.2 (Real.sqrt_pos.2 (by positivity)))).ne'
    · exact (ENNReal.ofReal_pos.2 (Real.exp_pos _)).ne'

/-- An invertible affine image of a Gaussian vector meets every set of positive volume. -/
theorem gauss_affine_pos {n : Nat} {A : Matrix (Fin n) (Fin n) ℝ} (hA : A.det ≠ 0) (m : Vec ℝ n) {B : Set (Vec ℝ n)}
    (hB : MeasurableSet B) (hv : volume B ≠ 0) : gauss n {z | (fun j => m j + A.mulVec z j) ∈ B} ≠ 0 := by
  intro h0
  have h1 := volume_ac_gauss n h0
  apply hv
  have h2 : MeasurableSet ((fun x : Vec ℝ n => m + x) ⁻¹' B) := (measurable_const_add m) hB
  have h3 := Real.map_matrix_volume_pi_eq_smul_volume_pi hA
  have h4 : Measure.map (Matrix.toLin' A) volume ((fun x : Vec ℝ n => m + x) ⁻¹' B) = 0 := by
    rw [Measure.map_apply (by exact (LinearMap.continuous_of_finiteDimensional _).measurable) h2]
    exact h1
  rw [h3, Measure.smul_apply, smul_eq_mul, mul_eq_zero] at h4
  rcases h4 with h4 | h4
  · exact absurd h4 (ENNReal.ofReal_pos.2 (abs_pos.2 (inv_ne_zero hA))).ne'
  · rwa [measure_preimage_add] at h4

/-! ## Metropolis steps -/

/-- An accepted move happens with positive probability, so what is avoided almost surely by the step is avoided by almost
every proposal. -/
theorem metropolis_avoid {E Z : Type} [MeasurableSpace Z] {ν : Measure Z} [SFinite ν] {d : Z → ℝ} {T : Z → E}
    {x : E} {p : E → Prop}
    (h : ∀ᵐ ω ∂(ν.prod unifLaw), p (if metropolis (Val.fin (d ω.1)) ω.2 = true then T ω.1 else x)) :
    ∀ᵐ z ∂ν, p (T z) := by
  refine (Measure.ae_ae_of_ae_prod h).mono fun z hz => ?_
  by_contra hc
  have h1 : unifLaw {u | metropolis (Val.fin (d z)) u = true} = 0 := by
    refine measure_mono_null (fun u hu => ?_) (ae_iff.1 hz)
    have hu : metropolis (Val.fin (d z)) u = true := hu
    show ¬ p (if metropolis (Val.fin (d z)) u = true then T z else x)
    rw [if_pos hu]
    exact hc
  rw [unifLaw_metropolis] at h1
  exact absurd h1 (ENNReal.ofReal_pos.2 (lt_min one_pos (Real.exp_pos _))).ne'

theorem metropolis_fin (d u : ℝ) : metropolis (Val.fin d) u = true ↔ u = 0 ∨ Real.log u < min 0 d := by
  unfold metropolis npLog
  rw [decide_eq_true_iff]
  by_cases hu : u = 0
  · simp only [hu, if_true, true_or, iff_true]
    unfold Val.pyMin
    split_ifs <;> exact trivial
  · rw [if_neg hu]
    unfold Val.pyMin
    have hl : NumFns.log u = Real.log u := rfl
    rw [hl]
    simp only [hu, false_or]
    split_ifs with h
    · have h' : d < 0 := h
      rw [min_eq_right h'.le]; rfl
    · have h' : ¬ d < 0 := h
      rw [min_eq_left (not_lt.1 h')]; rfl

theorem measurableSet_metropolis {E : Type} [MeasurableSpace E] {d u : E → ℝ} (hd : Measurable d) (hu : Measurable u) :
    MeasurableSet {e | metropolis (Val.fin (d e)) (u e) = true} := by
  have : {e | metropolis (Val.fin (d e)) (u e) = true} = {e | u e = 0} ∪ {e | Real.log (u e) < min 0 (d e)} := by
    ext e
    exact metropolis_fin _ _
  rw [this]
  exact (hu (measurableSet_singleton 0)).union
    (measurableSet_lt (Real.measurable_log.comp hu) (measurable_const.min hd))

/-! ## Several steps -/

variable {n : Nat} {Ω : Type} [MeasurableSpace Ω] {P : Measure Ω}

theorem reach_measurable [SFinite P] {B : Set (Vec ℝ n)} (hB : MeasurableSet B) :
    ∀ (l : List (Vec ℝ n → Ω → Vec ℝ n)), (∀ next ∈ l, Measurable fun e : Vec ℝ n × Ω => next e.1 e.2) →
      Measurable (reach P B l)
  | [], _ => measurable_one.indicator hB
  | next :: l, h => by
    have h1 := reach_measurable hB l fun k hk => h k (by simp [hk])
    exact Measurable.lintegral_prod_right' (f := fun e : Vec ℝ n × Ω => reach P B l (next e.1 e.2))
      (h1.comp (h next (by simp)))

/-- `reach` is the probability of the event that the transitions lead to `B` with independent inputs. -/
theorem reach_eq_pi [IsProbabilityMeasure P] {B : Set (Vec ℝ n)} (hB : MeasurableSet B) :
    ∀ (l : List (Vec ℝ n → Ω → Vec ℝ n)), (∀ next ∈ l, Measurable fun e : Vec ℝ n × Ω => next e.1 e.2) → ∀ x,
      reach P B l x = (Measure.pi fun _ : Fin l.length => P) {ω | walk l x ω ∈ B} := by
  have hw : ∀ (l : List (Vec ℝ n → Ω → Vec ℝ n)), (∀ next ∈ l, Measurable fun e : Vec ℝ n × Ω => next e.1 e.2) →
      Measurable fun e : Vec ℝ n × (Fin l.length → Ω) => walk l e.1 e.2 := by
    intro l
    induction l with
    | nil => intro _; exact measurable_fst
    | cons next l ih =>
      intro h
      have h1 := ih fun k hk => h k (by simp [hk])
      have h2 : Measurable fun e : Vec ℝ n × (Fin (l.length + 1) → Ω) => next e.1 (e.2 0) :=
        (h next (by simp)).comp (measurable_fst.prodMk ((measurable_pi_apply 0).comp measurable_snd))
      have h3 : Measurable fun e : Vec ℝ n × (Fin (l.length + 1) → Ω) => (fun i : Fin l.length => e.2 i.succ) :=
        measurable_pi_lambda _ fun i => (measurable_pi_apply i.succ).comp measurable_snd
      exact h1.comp (h2.prodMk h3)
  intro l
  induction l with
  | nil =>
    intro _ x
    show B.indicator 1 x = _
    by_cases hx : x ∈ B
    · rw [Set.indicator_of_mem hx]
      have : {ω | walk ([] : List (Vec ℝ n → Ω → Vec ℝ n)) x ω ∈ B} = Set.univ := by
        ext ω; exact iff_of_true hx trivial
      rw [this, measure_univ]
      rfl
    · rw [Set.indicator_of_notMem hx]
      have : {ω | walk ([] : List (Vec ℝ n → Ω → Vec ℝ n)) x ω ∈ B} = ∅ := by
        ext ω; exact iff_of_false hx (Set.notMem_empty _)
      rw [this, measure_empty]
  | cons next l ih =>
    intro h x
    have hl : ∀ k ∈ l, Measurable fun e : Vec ℝ n × Ω => k e.1 e.2 := fun k hk => h k (by simp [hk])
    have ih' := ih hl
    show ∫⁻ ω, reach P B l (next x ω) ∂P = (Measure.pi fun _ : Fin (l.length + 1) => P) {ω | walk (next :: l) x ω ∈ B}
    have e := (measurePreserving_piFinSuccAbove (fun _ : Fin (l.length + 1) => P) 0).symm
    have hS : MeasurableSet {ω : Fin (l.length + 1) → Ω | walk (next :: l) x ω ∈ B} :=
      ((hw (next :: l) h).comp (measurable_const.prodMk measurable_id)) hB
    rw [← e.measure_preimage hS.nullMeasurableSet, Measure.prod_apply (e.measurable hS)]
    refine lintegral_congr fun ω => ?_
    rw [ih']
    rfl

/-- A chain that gets to `B` from everywhere also gets there after one more transition. -/
theorem reach_cons_pos [IsProbabilityMeasure P] {B : Set (Vec ℝ n)} (hB : MeasurableSet B)
    {l : List (Vec ℝ n → Ω → Vec ℝ n)} {next : Vec ℝ n → Ω → Vec ℝ n}
    (h : ∀ k ∈ next :: l, Measurable fun e : Vec ℝ n × Ω => k e.1 e.2) (hp : ∀ x, reach P B l x ≠ 0) (x : Vec ℝ n) :
    reach P B (next :: l) x ≠ 0 := by
  have h1 := reach_measurable (P := P) hB l fun k hk => h k (by simp [hk])
  have h2 : Measurable fun ω => reach P B l (next x ω) :=
    h1.comp ((h next (by simp)).comp (measurable_const.prodMk measurable_id))
  intro h0
  have h3 := (lintegral_eq_zero_iff h2).1 h0
  have h4 : ∀ᵐ _ ∂P, False := h3.mono fun ω hω => hp _ hω
  rw [ae_iff] at h4
  simp at h4

/-! ## The random walk sampler -/

theorem measurable_walkStep {f : Vec ℝ n → ℝ} (hf : Measurable f) (scale : Vec ℝ n) (per b : Nat) :
    Measurable fun e : Vec ℝ n × (Vec ℝ n × ℝ) => walkStep f scale per b e.1 e.2 := by
  have hm : Measurable fun e : Vec ℝ n × (Vec ℝ n × ℝ) => blockMove scale per b e.1 e.2.1 := by
    simp only [blockMove_eq]
    exact measurable_fst.add ((measurable_shift scale per b).comp (measurable_fst.comp measurable_snd))
  have hd : Measurable fun e : Vec ℝ n × (Vec ℝ n × ℝ) => f e.1 - f (blockMove scale per b e.1 e.2.1) :=
    (hf.comp measurable_fst).sub (hf.comp hm)
  refine Measurable.ite ?_ hm measurable_fst
  simp only [Val.fin_sub]
  exact measurableSet_metropolis hd (measurable_snd.comp measurable_snd)

/-- `z` on the coordinates with `c`, `z'` on the others. -/
def mix (c : Fin n → Prop) [DecidablePred c] (z z' : Vec ℝ n) : Vec ℝ n := fun j => if c j then z j else z' j

/-- Coordinates of independent Gaussian vectors can be mixed. -/
theorem gauss_mix (c : Fin n → Prop) [DecidablePred c] :
    MeasurePreserving (fun z : Vec ℝ n × Vec ℝ n => mix c z.1 z.2) ((gauss n).prod (gauss n)) (gauss n) := by
  have hm : Measurable fun z : Vec ℝ n × Vec ℝ n => mix c z.1 z.2 := by
    refine measurable_pi_lambda _ fun j => ?_
    unfold mix
    by_cases hj : c j
    · simp only [if_pos hj]; exact (measurable_pi_apply j).comp measurable_fst
    · simp only [if_neg hj]; exact (measurable_pi_apply j).comp measurable_snd
  refine ⟨hm, ?_⟩
  refine (Measure.pi_eq fun s hs => ?_).symm
  rw [Measure.map_apply hm (MeasurableSet.univ_pi hs)]
  have hpre : (fun z : Vec ℝ n × Vec ℝ n => mix c z.1 z.2) ⁻¹' (Set.univ.pi s) =
      (Set.univ.pi fun j => if c j then s j else Set.univ) ×ˢ (Set.univ.pi fun j => if c j then Set.univ else s j) := by
    ext z
    simp only [Set.mem_preimage, Set.mem_pi, Set.mem_univ, true_implies, Set.mem_prod, mix]
    constructor
    · intro h
      refine ⟨fun j => ?_, fun j => ?_⟩
      · have := h j
        split_ifs with hj
        · rwa [if_pos hj] at this
        · trivial
      · have := h j
        split_ifs with hj
        · trivial
        · rwa [if_neg hj] at this
    · rintro ⟨h1, h2⟩ j
      have h1 := h1 j
      have h2 := h2 j
      split_ifs with hj
      · rwa [if_pos hj] at h1
      · rwa [if_neg hj] at h2
  rw [hpre, Measure.prod_prod]
  unfold gauss
  rw [Measure.pi_pi, Measure.pi_pi, ← Finset.prod_mul_distrib]
  refine Finset.prod_congr rfl fun j _ => ?_
  split_ifs <;> simp

/-- `x` with the coordinates of the given blocks moved. -/
def blocksMove (scale : Vec ℝ n) (per : Nat) (bs : List Nat) (x z : Vec ℝ n) : Vec ℝ n := fun c =>
  if c.val / per ∈ bs then x c + z c * scale c else x c

theorem measurable_blocksMove (scale : Vec ℝ n) (per : Nat) (bs : List Nat) (x : Vec ℝ n) :
    Measurable (blocksMove scale per bs x) := by
  refine measurable_pi_lambda _ fun c => ?_
  unfold blocksMove
  split_ifs
  · exact ((measurable_pi_apply c).mul_const _).const_add _
  · exact measurable_const

theorem blocksMove_cons (scale : Vec ℝ n) (per : Nat) {b : Nat} {bs : List Nat} (hb : b ∉ bs) (x z z' : Vec ℝ n) :
    blocksMove scale per bs (blockMove scale per b x z) z' =
      blocksMove scale per (b :: bs) x (mix (fun c => c.val / per = b) z z') := by
  funext c
  unfold blocksMove blockMove mix
  by_cases h : c.val / per = b
  · have h1 : c.val / per ∉ bs := by rw [h]; exact hb
    simp [h, hb]
  · simp [h]

/-- If a sweep over the blocks avoids `B` almost surely, so does the proposal that moves all of them at once. -/
theorem reach_avoid {f : Vec ℝ n → ℝ} (hf : Measurable f) (scale : Vec ℝ n) (per : Nat) {B : Set (Vec ℝ n)}
    (hB : MeasurableSet B) : ∀ (bs : List Nat), bs.Nodup → ∀ x,
      reach ((gauss n).prod unifLaw) B (bs.map (walkStep f scale per)) x = 0 →
      ∀ᵐ z ∂(gauss n), blocksMove scale per bs x z ∉ B
  | [], _, x, h => by
    have hx : x ∉ B := by
      intro hx
      have h : B.indicator 1 x = (0 : ℝ≥0∞) := h
      rw [Set.indicator_of_mem hx] at h
      exact one_ne_zero h
    refine ae_of_all _ fun z => ?_
    have : blocksMove scale per [] x z = x := by funext c; simp [blocksMove]
    rwa [this]
  | b :: bs, hnd, x, h => by
    rw [List.nodup_cons] at hnd
    have hmeas := reach_measurable (P := (gauss n).prod unifLaw) hB (bs.map (walkStep f scale per)) (by
      intro k hk
      obtain ⟨b', -, rfl⟩ := List.mem_map.1 hk
      exact measurable_walkStep hf scale per b')
    have h1 : Measurable fun ω => reach ((gauss n).prod unifLaw) B (bs.map (walkStep f scale per)) (walkStep f scale per b x ω) :=
      hmeas.comp ((measurable_walkStep hf scale per b).comp (measurable_const.prodMk measurable_id))
    have h2 := (lintegral_eq_zero_iff h1).1 h
    have h3 : ∀ᵐ z ∂(gauss n), reach ((gauss n).prod unifLaw) B (bs.map (walkStep f scale per)) (blockMove scale per b x z) = 0 := by
      refine metropolis_avoid (d := fun z => f x - f (blockMove scale per b x z)) (x := x)
        (p := fun y => reach ((gauss n).prod unifLaw) B (bs.map (walkStep f scale per)) y = 0) (h2.mono fun ω hω => ?_)
      unfold walkStep at hω
      simp only [Val.fin_sub] at hω
      exact hω
    have h4 : ∀ᵐ z ∂(gauss n), ∀ᵐ z' ∂(gauss n),
        blocksMove scale per (b :: bs) x (mix (fun c => c.val / per = b) z z') ∉ B := by
      refine h3.mono fun z hz => (reach_avoid hf scale per hB bs hnd.2 _ hz).mono fun z' hz' => ?_
      rwa [blocksMove_cons scale per hnd.1] at hz'
    have hset : MeasurableSet {z | blocksMove scale per (b :: bs) x z ∉ B} := measurable_blocksMove scale per _ x hB.compl
    have hmp := gauss_mix (n := n) fun c => c.val / per = b
    have h5 : ∀ᵐ e ∂((gauss n).prod (gauss n)),
        blocksMove scale per (b :: bs) x (mix (fun c => c.val / per = b) e.1 e.2) ∉ B :=
      (Measure.ae_prod_iff_ae_ae (hmp.measurable hset)).2 h4
    rw [← hmp.map_eq]
    exact (ae_map_iff hmp.measurable.aemeasurable hset).2 h5

/-- A sweep over all blocks can reach every set of positive volume. -/
theorem reach_sweep {f : Vec ℝ n → ℝ} (hf : Measurable f) {scale : Vec ℝ n} (hs : ∀ c, scale c ≠ 0) {per : Nat}
    {bs : List Nat} (hnd : bs.Nodup) (hall : ∀ c : Fin n, c.val / per ∈ bs) {B : Set (Vec ℝ n)} (hB : MeasurableSet B)
    (hv : volume B ≠ 0) (x : Vec ℝ n) : reach ((gauss n).prod unifLaw) B (bs.map (walkStep f scale per)) x ≠ 0 := by
  intro h0
  have h1 := reach_avoid hf scale per hB bs hnd x h0
  have hdet : (Matrix.diagonal scale).det ≠ 0 := by
    rw [Matrix.det_diagonal]
    exact Finset.prod_ne_zero_iff.2 fun c _ => hs c
  refine gauss_affine_pos hdet x hB hv (measure_mono_null (fun z hz => ?_) (ae_iff.1 h1))
  show ¬ ¬ _
  rw [not_not]
  have : blocksMove scale per bs x z = fun j => x j + (Matrix.diagonal scale).mulVec z j := by
    funext j
    unfold blocksMove
    rw [if_pos (hall j), Matrix.mulVec_diagonal, mul_comm]
  rw [this]
  exact hz

end Stochopy
